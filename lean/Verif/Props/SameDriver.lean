import Verif.Spec.SameDriver
import Verif.Props.SameLawJohn
import Verif.Props.JointDrivers
import Verif.Props.SameLawExamples

/-!
# C113: the law of what the full-run drivers return does not depend on the generator
-/

namespace PW
open MeasureTheory Matrix Set
open scoped ENNReal

theorem Driver.sameRows {n : ℕ} {run : Driver n} (I : run.Inner) (hI : Function.Injective I.L) (mI : Measurable I.L) {w w' : Walk ℝ} {e e' : Env ℝ}
    [MeasurableSpace e.r.G] [MeasurableSpace e'.r.G] {μ : Measure e.r.G} {μ' : Measure e'.r.G}
    (h : SameLaw w e μ I.M I.v I.x I.k w' e' μ' I.M I.v I.x I.k id) : SameRows run w e μ w' e' μ' := by
  intro niter burnin thin seed seed' hg L S hS hL
  rw [driverRowsProb_eq I hI, driverRowsProb_eq I hI]
  exact h.rows niter burnin thin seed seed' hg L {v | (fun i => I.L (v i)) ∈ S}
    (measurable_pi_lambda _ (fun i => mI.comp (measurable_pi_apply i)) hS) hL

section
variable (e : Env ℝ) [MeasurableSpace e.r.G] (μ : Measure e.r.G) (hs : IdealSource e.r μ)
  (e' : Env ℝ) [MeasurableSpace e'.r.G] (μ' : Measure e'.r.G) (hs' : IdealSource e'.r μ')
include hs hs'

section Sparse
variable {glp : Glpk ℝ} {E : Eigen ℝ} {err : ℝ} {A : DMat ℝ} (hS : FRSetting glp E err A) (h1 : err ≤ 1) {b : Fin A.r → ℝ} {k : Int}
  (hk : 0 < k ∧ k ≤ A.c) (hne : (PolyEq A.val b k.toNat).Nonempty) (hbd : ∃ C, ∀ y ∈ PolyEq A.val b k.toNat, ∀ i, |y i| ≤ C)
  (hcone : ¬ CoordCone (PolyEq A.val b k.toNat) k.toNat) (hright : handedK A.val b k = rightK A.val b k.toNat) {fuel : ℕ} (hf : k.toNat < fuel)
  (gi : Int) {d : ℕ} {x₀ : Fin A.c → ℝ} {B : Matrix (Fin A.c) (Fin d) ℝ} (hB : IsChart (PolyEq A.val b k.toNat) x₀ B)
include hS h1 hk hne hbd hcone hright hf hB

/-- **C113** (`sparseFullWalkRun` with `SparseDikinWalk`), under the conditions of C84: the law of the returned matrix depends neither on the (ideal)
generator nor on the seed nor on what the walk object did before. -/
theorem C113_sparse_dikin (hd : 1 ≤ d) (hE : E.Exact) (ERR : ℝ) (hR : 0 < ERR) (R : ℝ) (hr : R ≠ 0) (o o' : BState ℝ) :
    SameRows (sparseDriver glp E err fuel gi A b k) (.sparseBarrier (sparseDikinClass R) ERR E o) e μ
      (.sparseBarrier (sparseDikinClass R) ERR E o') e' μ' := by
  obtain ⟨I, h⟩ := sparse_inner hS h1 hk hne hbd hcone hright hf gi hd hB
  exact Driver.sameRows I h.inj h.meas (C108_sparse_dikin e μ hs e' μ' hs' E hE ERR hR R hr h.indep (by have := h.dim; omega) I.k h.k I.v h.bdd I.x
    h.xA h.xpos o o')

/-- **C113** (`SparseVaidyaWalk`). -/
theorem C113_sparse_vaidya (hd : 1 ≤ d) (hE : E.Exact) (ERR : ℝ) (hR : 0 < ERR) (R : ℝ) (hr : R ≠ 0) (hov : handedK A.val b k * d ≤ 2 ^ 31 - 1)
    (o o' : BState ℝ) :
    SameRows (sparseDriver glp E err fuel gi A b k) (.sparseBarrier (sparseVaidyaClass E ERR R) ERR E o) e μ
      (.sparseBarrier (sparseVaidyaClass E ERR R) ERR E o') e' μ' := by
  obtain ⟨I, h⟩ := sparse_inner hS h1 hk hne hbd hcone hright hf gi hd hB
  have hdim : (I.c : Int) - I.r = d := by have := h.dim; omega
  exact Driver.sameRows I h.inj h.meas (C108_sparse_vaidya e μ hs e' μ' hs' E hE ERR hR R hr h.indep (by have := h.dim; omega) I.k h.k I.v h.bdd I.x
    h.xA h.xpos (by rw [hdim, h.keq]; exact hov) o o')

/-- **C113** (`SparseJohnWalk`, when no more directions are free than coordinates are constrained), for a small tolerance and a large enough limit. -/
theorem C113_sparse_john (hd : 1 ≤ d) (hdk : d ≤ handedK A.val b k) (hE : E.Exact) (ERR : ℝ) (hR : 0 < ERR) (R : ℝ) (hr : R ≠ 0) :
    ∃ LIM₀ > 0, ∀ (LIM : ℝ) (M : Int), 0 < LIM → LIM ≤ LIM₀ → 3 * (handedK A.val b k : ℝ) ^ 2 / d < M * LIM ^ 2 → ∀ o o' : BState ℝ,
      SameRows (sparseDriver glp E err fuel gi A b k) (.sparseBarrier (sparseJohnClass E ERR R LIM M) ERR E o) e μ
        (.sparseBarrier (sparseJohnClass E ERR R LIM M) ERR E o') e' μ' := by
  obtain ⟨I, h⟩ := sparse_inner hS h1 hk hne hbd hcone hright hf gi hd hB
  have hrc : I.r < I.c := by have := h.dim; omega
  have hdim : (I.c : Int) - I.r = d := by have := h.dim; omega
  have hdimR : (I.c : ℝ) - I.r = d := by exact_mod_cast hdim
  have hIk : (I.c : Int) - I.r ≤ I.k := by rw [hdim, h.keq]; exact hdk
  obtain ⟨d', B', hB'⟩ := exists_kernelBasis I.M
  have hs0 := johnSlope_pos E hE ERR hR R hr h.indep hrc I.k h.k hIk I.v h.bdd I.x h.xA h.xpos B' hB' I.x h.xA h.xpos
  refine ⟨1 / (2 * johnSlope I.r I.c I.k.toNat), by positivity, fun LIM M hL hL0 hM o o' => ?_⟩
  have key := C108_sparse_john E hE ERR hR R hr h.indep hrc I.k h.k hIk I.x h.xpos LIM M hL
    (by rw [le_div_iff₀ (by positivity)] at hL0; linarith) (by rw [hdimR, h.keq]; exact hM) e μ hs e' μ' hs' o o'
  rw [h.xA] at key
  exact Driver.sameRows I h.inj h.meas key

/-- **C113** (`SparseHitAndRun`), if the polytope is not wider than `2^10000` radii. -/
theorem C113_sparse_hitRun (hd : 2 ≤ d) (hE : E.SparseLUExact) (R ERR : ℝ) (hR : 0 < ERR)
    (hD : ∀ y ∈ PolyEq A.val b k.toNat, ∀ z ∈ PolyEq A.val b k.toNat, ∑ i, (y i - z i) ^ 2 < (2 ^ 10000 * |R|) ^ 2) :
    SameRows (sparseDriver glp E err fuel gi A b k) (.sparseHitRun R ERR E) e μ (.sparseHitRun R ERR E) e' μ' := by
  obtain ⟨I, h⟩ := sparse_inner hS h1 hk hne hbd hcone hright hf gi (by omega) hB
  exact Driver.sameRows I h.inj h.meas (C108_sparse_hitrun e μ hs e' μ' hs' R ERR hR hE h.indep (by have := h.dim; omega) I.k h.k I.v
    (fun y hy z hz => by
      rw [← h.iso]
      exact hD _ ((h.maps y hy.1).2 hy) _ ((h.maps z hz.1).2 hz)) I.x h.xA h.xpos)

/-- **C113** (`SparseBallWalk`). -/
theorem C113_sparse_ball (hd : 1 ≤ d) (hE : E.SparseLUExact) (R : ℝ) :
    SameRows (sparseDriver glp E err fuel gi A b k) (.sparseBall R E) e μ (.sparseBall R E) e' μ' := by
  obtain ⟨I, h⟩ := sparse_inner hS h1 hk hne hbd hcone hright hf gi hd hB
  exact Driver.sameRows I h.inj h.meas (C108_sparse_ball e μ hs e' μ' hs' R hE h.indep I.v h.k I.x)

end Sparse

section Dense
variable {glp : Glpk ℝ} {E : Eigen ℝ} {err : ℝ} {A : DMat ℝ} (hS : FRSetting glp E err A) (h1 : err ≤ 1) (hQ : E.HouseholderExact) (hI : E.InvExact)
  {b : Fin A.r → ℝ} {k : Int} (hk : 0 < k ∧ k ≤ A.c) (hpos : ∃ x ∈ PolyEq A.val b k.toNat, x ∈ TailPos A.c k.toNat)
  (hbd : ∃ C, ∀ y ∈ PolyEq A.val b k.toNat, ∀ i, |y i| ≤ C) {fuel : ℕ} (hf : k.toNat < fuel)
  (gi : Int) {d : ℕ} {x₀ : Fin A.c → ℝ} {B : Matrix (Fin A.c) (Fin d) ℝ} (hB : IsChart (PolyEq A.val b k.toNat) x₀ B)
include hS h1 hQ hI hk hpos hbd hf hB

/-- **C113** (`denseFullWalkRun` with `BallWalk`). -/
theorem C113_dense_ball (R : ℝ) : SameRows (denseDriver glp E err fuel gi A b k) (.ball R) e μ (.ball R) e' μ' := by
  obtain ⟨I, h⟩ := dense_inner hS h1 hQ hI hk hpos hbd hf gi hB
  exact Driver.sameRows I h.inj h.meas (C108_ball e μ hs e' μ' hs' R I.M I.v h.rows I.x I.k)

/-- **C113** (`denseFullWalkRun` with `HitAndRun`). -/
theorem C113_dense_hitRun (hd : 2 ≤ d) (R ERR : ℝ) (hr : R ≠ 0) (hR : 0 < ERR) :
    SameRows (denseDriver glp E err fuel gi A b k) (.hitRun R ERR) e μ (.hitRun R ERR) e' μ' := by
  obtain ⟨I, h⟩ := dense_inner hS h1 hQ hI hk hpos hbd hf gi hB
  exact Driver.sameRows I h.inj h.meas (C108_hitrun e μ hs e' μ' hs' R ERR hr hR (by have := h.dim; omega) I.M I.v h.bdd I.x h.x I.k)

/-- **C113** (`denseFullWalkRun` with `DikinWalk`, in any dimension: the law need not be uniform, C78). -/
theorem C113_dense_dikin (hd : 1 ≤ d) (hE : E.Exact) (R : ℝ) (hr : R ≠ 0) (o o' : BState ℝ) :
    SameRows (denseDriver glp E err fuel gi A b k) (.barrier (dikinClass R) E o) e μ (.barrier (dikinClass R) E o') e' μ' := by
  obtain ⟨I, h⟩ := dense_inner hS h1 hQ hI hk hpos hbd hf gi hB
  exact Driver.sameRows I h.inj h.meas (C108_dense_dikin e μ hs e' μ' hs' E hE R hr I.M I.v (by have := h.dim; omega) h.bdd I.x h.x I.k o o')

end Dense

end

/-! ## Examples -/

/-- A generator that flips the signs of the normal draws is as good, for `sparseFullWalkRun` with a `SparseDikinWalk` on the segment
`{x ≥ 0 | x₁ + x₂ = 1, x₃ = 0}`, and for `denseFullWalkRun` with `HitAndRun` on the simplex. -/
example : ∃ err err', (∀ o o' : BState ℝ, SameRows (sparseDriver exactGlpk exactEigen err 4 0 faceA faceB 3)
      (.sparseBarrier (sparseDikinClass 1) 1 exactEigen o) streamEnv streamLaw (.sparseBarrier (sparseDikinClass 1) 1 exactEigen o') flipEnv streamLaw) ∧
    SameRows (denseDriver exactGlpk exactEigen err' 4 0 simplexA simplexB 3) (.hitRun 1 1) streamEnv streamLaw (.hitRun 1 1) flipEnv streamLaw := by
  obtain ⟨err, h1, hS⟩ := exists_frSetting faceA
  obtain ⟨err', h1', hS'⟩ := exists_frSetting simplexA
  exact ⟨err, err', fun o o' => C113_sparse_dikin streamEnv streamLaw streamRng_ideal flipEnv streamLaw flipEnv_ideal hS h1 (b := faceB) (k := 3)
      (by decide) ⟨_, face_pos⟩ ⟨1, fun y hy => face_box hy⟩ face_not_cone face_right (fuel := 4) (by decide) 0 face_chart le_rfl exactEigen_exact
      1 one_pos 1 one_ne_zero o o',
    C113_dense_hitRun streamEnv streamLaw streamRng_ideal flipEnv streamLaw flipEnv_ideal hS' h1' exactEigen_householderQR exactEigen_exact.inv
      (b := simplexB) (k := 3) (by decide) ⟨_, simplexMid_mem, simplexMid_pos⟩ simplexA_bdd (fuel := 4) (by decide) 0 simplexA_chart le_rfl 1 1
      one_ne_zero one_pos⟩

end PW
