import Verif.Props.Joint
import Verif.Props.EndToEnd

/-!
# C96: rows of the full-run drivers that are far enough apart are jointly distributed like independent samples of the caller's polytope
-/

namespace PW
open MeasureTheory Matrix Set
open scoped ENNReal

section Transfer
variable {n : ℕ} {run : Driver n}

theorem driverRowsProb_eq (I : run.Inner) (hI : Function.Injective I.L) (w : Walk ℝ) (e : Env ℝ) [MeasurableSpace e.r.G] (μ : Measure e.r.G)
    (niter burnin thin seed : Int) {L : ℕ} (S : Set (Fin L → Fin n → ℝ)) :
    driverRowsProb (fun env => run w env niter burnin thin seed) e μ S =
      rowsProb w e μ (callArgs I.M I.v I.x niter I.k burnin thin seed) {v : Fin L → Fin I.c → ℝ | (fun i => I.L (v i)) ∈ S} := by
  unfold driverRowsProb rowsProb
  congr 1
  ext g
  constructor
  · rintro ⟨f0, rows, h, hj, hT⟩
    have h0 := h f0 le_rfl
    simp only [I.runs] at h0
    obtain ⟨rows', h1, h2⟩ := Out.map_eq_ok.1 h0
    refine ⟨f0, rows', fun f hf => ?_, ?_⟩
    · have h3 := h f hf
      simp only [I.runs] at h3
      obtain ⟨rows'', h4, h5⟩ := Out.map_eq_ok.1 h3
      rw [h4, List.map_injective_iff.2 hI (h5.trans h2.symm)]
    · subst h2
      refine ⟨by rw [List.length_map] at hj; exact hj, ?_⟩
      have e1 : (fun i : Fin L => (rows'.map I.L)[i.val]'(by omega)) = fun i : Fin L => I.L (rows'[i.val]'(by rw [List.length_map] at hj; omega)) :=
        funext fun i => List.getElem_map _
      rw [e1] at hT
      exact hT
  · rintro ⟨f0, rows, h, hj, hT⟩
    refine ⟨f0, rows.map I.L, fun f hf => ?_, by rw [List.length_map]; exact hj, ?_⟩
    · simp only [I.runs]
      rw [h f hf, Out.map_ok]
    · have e1 : (fun i : Fin L => (rows.map I.L)[i.val]'(by rw [List.length_map]; exact lt_of_lt_of_eq i.isLt hj.symm)) =
          fun i : Fin L => I.L (rows[i.val]'(lt_of_lt_of_eq i.isLt hj.symm)) := funext fun i => List.getElem_map _
      rw [e1]
      exact hT

theorem normed_finite {X : Type} [MeasurableSpace X] (π : Measure X) : IsFiniteMeasure ((π univ)⁻¹ • π) :=
  ⟨by rw [Measure.smul_apply, smul_eq_mul]; exact lt_of_le_of_lt (ENNReal.inv_mul_le_one _) ENNReal.one_lt_top⟩

theorem independent_map {c : ℕ} {F : (Fin c → ℝ) → Fin n → ℝ} (mF : Measurable F) {π : Measure (Fin n → ℝ)} {π' : Measure (Fin c → ℝ)} {κ : ℝ≥0∞}
    (h0 : κ ≠ 0) (h1 : κ ≠ ⊤) (hπ : π = κ • π'.map F) {L : ℕ} {S : Set (Fin L → Fin n → ℝ)} (hS : MeasurableSet S) :
    independent π L S = independent π' L {v | (fun i => F (v i)) ∈ S} := by
  have hf := normed_finite π'
  have e1 : (π univ)⁻¹ • π = ((π' univ)⁻¹ • π').map F := by
    have hu : π univ = κ * π' univ := by
      rw [hπ, Measure.smul_apply, smul_eq_mul, Measure.map_apply mF MeasurableSet.univ, preimage_univ]
    rw [hu, hπ, smul_smul, Measure.map_smul, ENNReal.mul_inv (Or.inl h0) (Or.inl h1), mul_right_comm, ENNReal.inv_mul_cancel h0 h1, one_mul]
  unfold independent
  rw [e1]
  have e2 : (Measure.pi fun _ : Fin L => (π' univ)⁻¹ • π').map (fun v i => F (v i)) = Measure.pi fun _ : Fin L => ((π' univ)⁻¹ • π').map F :=
    Measure.pi_map_pi fun _ => mF.aemeasurable
  have mv : Measurable fun (v : Fin L → Fin c → ℝ) i => F (v i) := measurable_pi_lambda _ fun i => mF.comp (measurable_pi_apply i)
  rw [← e2, Measure.map_apply mv hS]
  rfl

theorem Driver.jointWithin (I : run.Inner) (hI : Function.Injective I.L) (mI : Measurable I.L) {π : Measure (Fin n → ℝ)} {π' : Measure (Fin I.c → ℝ)}
    {κ : ℝ≥0∞} (h0 : κ ≠ 0) (h1 : κ ≠ ⊤) (hπ : π = κ • π'.map I.L) {w : Walk ℝ} {e : Env ℝ} [MeasurableSpace e.r.G] {μ : Measure e.r.G} {seed : Int}
    {L gap : ℕ} {ε : ℝ} (h : PW.JointWithin w e μ I.M I.v I.x I.k seed π' L gap ε) : Driver.JointWithin I w e μ seed π L gap ε := by
  intro niter burnin thin S hS
  obtain ⟨h2, h3⟩ := h niter burnin thin {v | (fun i => I.L (v i)) ∈ S} (measurable_pi_lambda _ (fun i => mI.comp (measurable_pi_apply i)) hS)
  rw [independent_map mI h0 h1 hπ hS]
  refine ⟨h2, fun hg hL hr => ?_⟩
  rw [driverRowsProb_eq I hI]
  exact h3 hg hL hr

end Transfer

section Sparse
variable {glp : Glpk ℝ} {E : Eigen ℝ} {err : ℝ} {A : DMat ℝ} (hS : FRSetting glp E err A) (h1 : err ≤ 1) {b : Fin A.r → ℝ} {k : Int}
  (hk : 0 < k ∧ k ≤ A.c) (hne : (PolyEq A.val b k.toNat).Nonempty) (hbd : ∃ C, ∀ y ∈ PolyEq A.val b k.toNat, ∀ i, |y i| ≤ C)
  (hcone : ¬ CoordCone (PolyEq A.val b k.toNat) k.toNat) (hright : handedK A.val b k = rightK A.val b k.toNat) {fuel : ℕ} (hf : k.toNat < fuel)
  (gi : Int) {d : ℕ} {x₀ : Fin A.c → ℝ} {B : Matrix (Fin A.c) (Fin d) ℝ} (hB : IsChart (PolyEq A.val b k.toNat) x₀ B)
include hS h1 hk hne hbd hcone hright hf hB

/-- **C96** (`sparseFullWalkRun` with `SparseDikinWalk`): under the conditions of C84, for any number `L` of rows there is a gap such that if the driver thins by the
gap or more, the `L` rows it returns are jointly within `ε` of `L` independent uniform points of the caller's polytope. -/
theorem C96_sparse_dikin (hd : 1 ≤ d) (hE : E.Exact) (ERR : ℝ) (hR : 0 < ERR) (R : ℝ) (hr : R ≠ 0) :
    ∃ I : (sparseDriver glp E err fuel gi A b k).Inner, ∀ (L : ℕ), ∀ ε > 0, ∃ gap : ℕ, ∀ (o : BState ℝ) (e : Env ℝ) [MeasurableSpace e.r.G] (μ : Measure e.r.G),
      IdealSource e.r μ → ∀ seed : Int,
        Driver.JointWithin I (.sparseBarrier (sparseDikinClass R) ERR E o) e μ seed (uniformIn (PolyEq A.val b k.toNat) x₀ B) L gap ε := by
  obtain ⟨I, h⟩ := sparse_inner hS h1 hk hne hbd hcone hright hf gi hd hB
  refine ⟨I, fun L ε hε => ?_⟩
  obtain ⟨B', hB', κ, hκ0, hκ1, hκ⟩ := h.law
  obtain ⟨gap, hg⟩ := C95_sparse_dikin E hE ERR hR R hr h.indep (by have := h.dim; omega) I.k h.k I.v h.bdd I.x h.xA h.xpos B' hB' I.x h.xA h.xpos L ε hε
  exact ⟨gap, fun o e _ μ hs seed => Driver.jointWithin I h.inj h.meas hκ0 hκ1 hκ (hg o e μ hs seed)⟩

/-- **C96** (`SparseVaidyaWalk`). -/
theorem C96_sparse_vaidya (hd : 1 ≤ d) (hE : E.Exact) (ERR : ℝ) (hR : 0 < ERR) (R : ℝ) (hr : R ≠ 0) (hov : handedK A.val b k * d ≤ 2 ^ 31 - 1) :
    ∃ I : (sparseDriver glp E err fuel gi A b k).Inner, ∀ (L : ℕ), ∀ ε > 0, ∃ gap : ℕ, ∀ (o : BState ℝ) (e : Env ℝ) [MeasurableSpace e.r.G] (μ : Measure e.r.G),
      IdealSource e.r μ → ∀ seed : Int,
        Driver.JointWithin I (.sparseBarrier (sparseVaidyaClass E ERR R) ERR E o) e μ seed (uniformIn (PolyEq A.val b k.toNat) x₀ B) L gap ε := by
  obtain ⟨I, h⟩ := sparse_inner hS h1 hk hne hbd hcone hright hf gi hd hB
  refine ⟨I, fun L ε hε => ?_⟩
  obtain ⟨B', hB', κ, hκ0, hκ1, hκ⟩ := h.law
  have hdim : (I.c : Int) - I.r = d := by have := h.dim; omega
  obtain ⟨gap, hg⟩ := C95_sparse_vaidya E hE ERR hR R hr h.indep (by have := h.dim; omega) I.k h.k I.v h.bdd I.x h.xA h.xpos B' hB' I.x h.xA h.xpos
    (by rw [hdim, h.keq]; exact hov) L ε hε
  exact ⟨gap, fun o e _ μ hs seed => Driver.jointWithin I h.inj h.meas hκ0 hκ1 hκ (hg o e μ hs seed)⟩

/-- **C96** (`SparseHitAndRun`). -/
theorem C96_sparse_hitRun (hd : 2 ≤ d) (hE : E.SparseLUExact) (D : ℝ)
    (hD : ∀ y ∈ PolyEq A.val b k.toNat, ∀ z ∈ PolyEq A.val b k.toNat, ∑ i, (y i - z i) ^ 2 ≤ D ^ 2) :
    ∃ I : (sparseDriver glp E err fuel gi A b k).Inner, ∀ (L : ℕ), ∀ ε > 0, ∃ η > 0, ∃ gap : ℕ, ∀ R ERR : ℝ, |D| < 2 ^ 10000 * |R| → 0 < ERR → ERR ≤ η →
      ∀ (e : Env ℝ) [MeasurableSpace e.r.G] (μ : Measure e.r.G), IdealSource e.r μ → ∀ seed : Int,
        Driver.JointWithin I (.sparseHitRun R ERR E) e μ seed (uniformIn (PolyEq A.val b k.toNat) x₀ B) L gap ε := by
  obtain ⟨I, h⟩ := sparse_inner hS h1 hk hne hbd hcone hright hf gi (by omega) hB
  refine ⟨I, fun L ε hε => ?_⟩
  obtain ⟨B', hB', κ, hκ0, hκ1, hκ⟩ := h.law
  obtain ⟨η, hη, gap, hg⟩ := C95_sparse_hitrun_limit hE h.indep (by have := h.dim; omega) I.k h.k I.v I.x h.xA h.xpos D
    (fun y hy z hz => by
      rw [← h.iso]
      exact hD _ ((h.maps y hy.1).2 hy) _ ((h.maps z hz.1).2 hz)) B' hB' L ε hε
  exact ⟨η, hη, gap, fun R ERR hR hE0 hEη e _ μ hs seed =>
    Driver.jointWithin I h.inj h.meas hκ0 hκ1 hκ (hg R ERR hR hE0 hEη e μ hs I.x h.xA h.xpos seed)⟩

/-- **C96** (`SparseBallWalk`). -/
theorem C96_sparse_ball (hd : 2 ≤ d) (hE : E.SparseLUExact) {R : ℝ} (hR : R ≠ 0) {u₀ : Fin d → ℝ} {ρ : ℝ} (hρ : |R| / Real.sqrt d < ρ)
    (hball : ∀ u, ∑ i, (chart x₀ B u i - chart x₀ B u₀ i) ^ 2 ≤ ρ ^ 2 → chart x₀ B u ∈ PolyEq A.val b k.toNat) :
    ∃ I : (sparseDriver glp E err fuel gi A b k).Inner, ∀ (L : ℕ), ∀ ε > 0, ∃ gap : ℕ, ∀ (e : Env ℝ) [MeasurableSpace e.r.G] (μ : Measure e.r.G),
      IdealSource e.r μ → ∀ seed : Int,
        Driver.JointWithin I (.sparseBall R E) e μ seed (uniformIn (PolyEq A.val b k.toNat) x₀ B) L gap ε := by
  obtain ⟨I, h⟩ := sparse_inner hS h1 hk hne hbd hcone hright hf gi (by omega) hB
  refine ⟨I, fun L ε hε => ?_⟩
  obtain ⟨B', hB', κ, hκ0, hκ1, hκ⟩ := h.law
  obtain ⟨y₀, hy₀, hb'⟩ := h.ball hB hball
  have hdim : (I.c : ℝ) - I.r = d := by rw [← h.dim]; push_cast; ring
  obtain ⟨κ', hκ'0, hκ'1, hκ'⟩ := uniformOnEq_chart hB' hB' (x₀ := y₀) (x₁ := I.x) (h.xA.trans hy₀.symm) I.k.toNat
  obtain ⟨gap, hg⟩ := C95_sparse_ball_limit hE h.indep (by have := h.dim; omega) h.k h.bdd hR hy₀ (by rw [hdim]; exact hρ) hb' hB' L ε hε
  refine ⟨gap, fun e _ μ hs seed => Driver.jointWithin I h.inj h.meas (κ := κ * κ') (mul_ne_zero hκ0 hκ'0) (ENNReal.mul_ne_top hκ1 hκ'1) ?_
    (hg e μ hs I.x ⟨h.xA, tailPos_subset _ _ h.xpos⟩ seed)⟩
  rw [hκ, hκ', Measure.map_smul, smul_smul]

end Sparse

section Dense
variable {glp : Glpk ℝ} {E : Eigen ℝ} {err : ℝ} {A : DMat ℝ} (hS : FRSetting glp E err A) (h1 : err ≤ 1) (hQ : E.HouseholderExact) (hI : E.InvExact)
  {b : Fin A.r → ℝ} {k : Int} (hk : 0 < k ∧ k ≤ A.c) (hpos : ∃ x ∈ PolyEq A.val b k.toNat, x ∈ TailPos A.c k.toNat)
  (hbd : ∃ C, ∀ y ∈ PolyEq A.val b k.toNat, ∀ i, |y i| ≤ C) {fuel : ℕ} (hf : k.toNat < fuel)
  (gi : Int) {d : ℕ} {x₀ : Fin A.c → ℝ} {B : Matrix (Fin A.c) (Fin d) ℝ} (hB : IsChart (PolyEq A.val b k.toNat) x₀ B)
include hS h1 hQ hI hk hpos hbd hf hB

/-- **C96** (`denseFullWalkRun` with `HitAndRun`). -/
theorem C96_dense_hitRun (hd : 2 ≤ d) :
    ∃ I : (denseDriver glp E err fuel gi A b k).Inner, ∀ (L : ℕ), ∀ ε > 0, ∃ η > 0, ∃ gap : ℕ, ∀ R ERR : ℝ, R ≠ 0 → 0 < ERR → ERR ≤ η →
      ∀ (e : Env ℝ) [MeasurableSpace e.r.G] (μ : Measure e.r.G), IdealSource e.r μ → ∀ seed : Int,
        Driver.JointWithin I (.hitRun R ERR) e μ seed (uniformIn (PolyEq A.val b k.toNat) x₀ B) L gap ε := by
  obtain ⟨I, h⟩ := dense_inner hS h1 hQ hI hk hpos hbd hf gi hB
  refine ⟨I, fun L ε hε => ?_⟩
  obtain ⟨κ, hκ0, hκ1, hκ⟩ := h.law
  obtain ⟨η, hη, gap, hg⟩ := C95_hitrun_limit (by have := h.dim; omega) I.M I.v ⟨_, h.x⟩ h.bdd L ε hε
  exact ⟨η, hη, gap, fun R ERR hR hE0 hEη e _ μ hs seed =>
    Driver.jointWithin I h.inj h.meas hκ0 hκ1 hκ (hg R ERR hR hE0 hEη e μ hs I.x h.x I.k seed)⟩

/-- **C96** (`denseFullWalkRun` with `BallWalk`). -/
theorem C96_dense_ball (hd : 2 ≤ d) {R : ℝ} (hR : R ≠ 0) {u₀ : Fin d → ℝ} {ρ : ℝ} (hρ : |R| / Real.sqrt d < ρ)
    (hball : ∀ u, ∑ i, (chart x₀ B u i - chart x₀ B u₀ i) ^ 2 ≤ ρ ^ 2 → chart x₀ B u ∈ PolyEq A.val b k.toNat) :
    ∃ I : (denseDriver glp E err fuel gi A b k).Inner, ∀ (L : ℕ), ∀ ε > 0, ∃ gap : ℕ, ∀ (e : Env ℝ) [MeasurableSpace e.r.G] (μ : Measure e.r.G),
      IdealSource e.r μ → ∀ seed : Int,
        Driver.JointWithin I (.ball R) e μ seed (uniformIn (PolyEq A.val b k.toNat) x₀ B) L gap ε := by
  obtain ⟨I, h⟩ := dense_inner hS h1 hQ hI hk hpos hbd hf gi hB
  refine ⟨I, fun L ε hε => ?_⟩
  obtain ⟨κ, hκ0, hκ1, hκ⟩ := h.law
  obtain ⟨y₀, hb'⟩ := h.ball hB hball
  obtain ⟨gap, hg⟩ := C95_ball_limit (by have := h.dim; omega) h.bdd hR (by rw [h.dim]; exact hρ) hb' L ε hε
  exact ⟨gap, fun e _ μ hs seed => Driver.jointWithin I h.inj h.meas hκ0 hκ1 hκ (hg e μ hs I.x (interior_subset _ _ h.x) I.k seed)⟩

/-- **C96** (`denseFullWalkRun` with `DikinWalk`, on a polytope of dimension one). -/
theorem C96_dense_dikin (hd : d = 1) (hE : E.Exact) (R : ℝ) (hr : R ≠ 0) :
    ∃ I : (denseDriver glp E err fuel gi A b k).Inner, ∀ (L : ℕ), ∀ ε > 0, ∃ gap : ℕ, ∀ (o : BState ℝ) (e : Env ℝ) [MeasurableSpace e.r.G] (μ : Measure e.r.G),
      IdealSource e.r μ → ∀ seed : Int,
        Driver.JointWithin I (.barrier (dikinClass R) E o) e μ seed (uniformIn (PolyEq A.val b k.toNat) x₀ B) L gap ε := by
  obtain ⟨I, h⟩ := dense_inner hS h1 hQ hI hk hpos hbd hf gi hB
  refine ⟨I, fun L ε hε => ?_⟩
  obtain ⟨κ, hκ0, hκ1, hκ⟩ := h.law
  have hc := h.dim
  obtain ⟨gap, hg⟩ := C95_dense_dikin E hE R hr (by omega) (fun i j l _ _ => Fin.ext (by have := j.isLt; have := l.isLt; omega)) h.bdd h.x L ε hε
  exact ⟨gap, fun o e _ μ hs seed => Driver.jointWithin I h.inj h.meas hκ0 hκ1 hκ (hg o e μ hs I.k seed)⟩

end Dense

/-! ## Examples -/

/-- `sparseFullWalkRun` with a `SparseDikinWalk` on the segment `{x ≥ 0 | x₁ + x₂ = 1, x₃ = 0}`, which lies in a face. -/
example : ∃ err, ∃ I : (sparseDriver exactGlpk exactEigen err 4 0 faceA faceB 3).Inner, ∀ (L : ℕ), ∀ ε > 0, ∃ gap : ℕ, ∀ (o : BState ℝ) (seed : Int),
      Driver.JointWithin I (.sparseBarrier (sparseDikinClass 1) 1 exactEigen o) streamEnv streamLaw seed
        (uniformIn (PolyEq faceA.val faceB 3) ![1 / 2, 1 / 2, 0] faceDir) L gap ε := by
  obtain ⟨err, h1, hS⟩ := exists_frSetting faceA
  obtain ⟨I, h⟩ := C96_sparse_dikin hS h1 (b := faceB) (k := 3) (by decide) ⟨_, face_pos⟩ ⟨1, fun y hy => face_box hy⟩ face_not_cone face_right (fuel := 4)
    (by decide) 0 face_chart le_rfl exactEigen_exact 1 one_pos 1 one_ne_zero
  refine ⟨err, I, fun L ε hε => ?_⟩
  obtain ⟨gap, h⟩ := h L ε hε
  exact ⟨gap, fun o seed => h o streamEnv streamLaw streamRng_ideal seed⟩

/-- `denseFullWalkRun` with a `HitAndRun` and with a `BallWalk` on the simplex. -/
example : ∃ err,
    (∃ I : (denseDriver exactGlpk exactEigen err 4 0 simplexA simplexB 3).Inner, ∀ (L : ℕ), ∀ ε > 0, ∃ η > 0, ∃ gap : ℕ, ∀ R ERR : ℝ, R ≠ 0 → 0 < ERR →
      ERR ≤ η → ∀ seed : Int,
        Driver.JointWithin I (.hitRun R ERR) streamEnv streamLaw seed (uniformIn (n := 3) (PolyEq simplexA.val simplexB 3) simplexMid simplexBasis) L gap ε) ∧
    ∃ I : (denseDriver exactGlpk exactEigen err 4 0 simplexA simplexB 3).Inner, ∀ (L : ℕ), ∀ ε > 0, ∃ gap : ℕ, ∀ seed : Int,
        Driver.JointWithin I (.ball (1 / 4)) streamEnv streamLaw seed (uniformIn (n := 3) (PolyEq simplexA.val simplexB 3) simplexMid simplexBasis) L gap ε := by
  obtain ⟨err, h1, hS⟩ := exists_frSetting simplexA
  refine ⟨err, ?_, ?_⟩
  · obtain ⟨I, h⟩ := C96_dense_hitRun hS h1 exactEigen_householderQR exactEigen_exact.inv (b := simplexB) (k := 3) (by decide) ⟨_, simplexMid_mem, simplexMid_pos⟩
      simplexA_bdd (fuel := 4) (by decide) 0 simplexA_chart le_rfl
    refine ⟨I, fun L ε hε => ?_⟩
    obtain ⟨η, hη, gap, h⟩ := h L ε hε
    exact ⟨η, hη, gap, fun R ERR a1 a2 a3 seed => h R ERR a1 a2 a3 streamEnv streamLaw streamRng_ideal seed⟩
  · obtain ⟨I, h⟩ := C96_dense_ball hS h1 exactEigen_householderQR exactEigen_exact.inv (b := simplexB) (k := 3) (by decide) ⟨_, simplexMid_mem, simplexMid_pos⟩
      simplexA_bdd (fuel := 4) (by decide) 0 simplexA_chart le_rfl (R := 1 / 4) (by norm_num) (u₀ := 0) simplex_step simplexA_disc
    refine ⟨I, fun L ε hε => ?_⟩
    obtain ⟨gap, h⟩ := h L ε hε
    exact ⟨gap, fun seed => h streamEnv streamLaw streamRng_ideal seed⟩

end PW
