import Verif.Props.StrongLaw
import Verif.Props.HitRunLimit
import Verif.Props.JointDrivers

/-!
# C99: averages along one run of the walk a full-run driver runs converge with probability one, in the coordinates of the caller
-/

namespace PW
open MeasureTheory Matrix Set
open scoped ENNReal

section Transfer
variable {n : ℕ} {run : Driver n}

theorem Driver.meanConverges (I : run.Inner) {w : Walk ℝ} {e : Env ℝ} [MeasurableSpace e.r.G] {μ : Measure e.r.G} {seed : Int}
    {φ : (Fin n → ℝ) → ℝ} {c : ℝ} (h : PW.MeanConverges w e μ I.M I.v I.x I.k seed (φ ∘ I.L) c) : Driver.MeanConverges I w e μ seed φ c := by
  refine h.mono fun g hg => ?_
  obtain ⟨path, h1, h2, h3⟩ := hg
  refine ⟨path, h1, fun niter burnin thin hi => ?_, h3⟩
  obtain ⟨f0, rows, h4, h5, h6⟩ := h2 niter burnin thin hi
  refine ⟨f0, rows.map I.L, fun f hf => ?_, by rw [List.length_map]; exact h5, fun j hj => ?_⟩
  · rw [I.runs, h4 f hf, Out.map_ok]
  · rw [List.length_map] at hj
    rw [List.getElem_map, h6 j hj]

theorem Driver.meanConverges_of (I : run.Inner) (mI : Measurable I.L) {π : Measure (Fin n → ℝ)} {π' : Measure (Fin I.c → ℝ)}
    {κ : ℝ≥0∞} (h0 : κ ≠ 0) (h1 : κ ≠ ⊤) (hπ : π = κ • π'.map I.L) {w : Walk ℝ} {e : Env ℝ} [MeasurableSpace e.r.G] {μ : Measure e.r.G} {seed : Int}
    {φ : (Fin n → ℝ) → ℝ} (hφ : Measurable φ) (h : PW.MeanConverges w e μ I.M I.v I.x I.k seed (φ ∘ I.L) (average π' (φ ∘ I.L))) :
    Driver.MeanConverges I w e μ seed φ (average π φ) := by
  have hs : average π φ = average π' (φ ∘ I.L) := by rw [hπ, average_smul _ h0 h1, average_map _ mI hφ]
  rw [hs]
  exact Driver.meanConverges I h

end Transfer

section Sparse
variable {glp : Glpk ℝ} {E : Eigen ℝ} {err : ℝ} {A : DMat ℝ} (hS : FRSetting glp E err A) (h1 : err ≤ 1) {b : Fin A.r → ℝ} {k : Int}
  (hk : 0 < k ∧ k ≤ A.c) (hne : (PolyEq A.val b k.toNat).Nonempty) (hbd : ∃ C, ∀ y ∈ PolyEq A.val b k.toNat, ∀ i, |y i| ≤ C)
  (hcone : ¬ CoordCone (PolyEq A.val b k.toNat) k.toNat) (hright : handedK A.val b k = rightK A.val b k.toNat) {fuel : ℕ} (hf : k.toNat < fuel)
  (gi : Int) {d : ℕ} {x₀ : Fin A.c → ℝ} {B : Matrix (Fin A.c) (Fin d) ℝ} (hB : IsChart (PolyEq A.val b k.toNat) x₀ B)
include hS h1 hk hne hbd hcone hright hf hB

/-- **C99** (`sparseFullWalkRun` with `SparseDikinWalk`): under the conditions of C84, with probability one the averages of a bounded function along a run converge to its
mean under the uniform distribution on the caller's polytope. -/
theorem C99_sparse_dikin (hd : 1 ≤ d) (hE : E.Exact) (ERR : ℝ) (hR : 0 < ERR) (R : ℝ) (hr : R ≠ 0) :
    ∃ I : (sparseDriver glp E err fuel gi A b k).Inner, ∀ (φ : (Fin A.c → ℝ) → ℝ), Measurable φ → ∀ M > 0, (∀ y ∈ PolyEq A.val b k.toNat, |φ y| ≤ M) →
      ∀ (o : BState ℝ) (e : Env ℝ) [MeasurableSpace e.r.G] (μ : Measure e.r.G), IdealSource e.r μ → ∀ seed : Int,
        Driver.MeanConverges I (.sparseBarrier (sparseDikinClass R) ERR E o) e μ seed φ (average (uniformIn (PolyEq A.val b k.toNat) x₀ B) φ) := by
  obtain ⟨I, h⟩ := sparse_inner hS h1 hk hne hbd hcone hright hf gi hd hB
  refine ⟨I, fun φ hφ M hM hφM o e _ μ hs seed => ?_⟩
  obtain ⟨B', hB', κ, hκ0, hκ1, hκ⟩ := h.law
  exact Driver.meanConverges_of I h.meas hκ0 hκ1 hκ hφ (C97_sparse_dikin E hE ERR hR R hr h.indep (by have := h.dim; omega) I.k h.k I.v h.bdd I.x h.xA h.xpos B' hB'
    I.x h.xA h.xpos (φ ∘ I.L) (hφ.comp h.meas) M hM (fun y hy => hφM _ ((h.maps y hy.1).2 hy)) o e μ hs seed)

/-- **C99** (`SparseVaidyaWalk`), when the `int` product of the number of constraints and the dimension does not overflow. -/
theorem C99_sparse_vaidya (hd : 1 ≤ d) (hE : E.Exact) (ERR : ℝ) (hR : 0 < ERR) (R : ℝ) (hr : R ≠ 0) (hov : handedK A.val b k * d ≤ 2 ^ 31 - 1) :
    ∃ I : (sparseDriver glp E err fuel gi A b k).Inner, ∀ (φ : (Fin A.c → ℝ) → ℝ), Measurable φ → ∀ M > 0, (∀ y ∈ PolyEq A.val b k.toNat, |φ y| ≤ M) →
      ∀ (o : BState ℝ) (e : Env ℝ) [MeasurableSpace e.r.G] (μ : Measure e.r.G), IdealSource e.r μ → ∀ seed : Int,
        Driver.MeanConverges I (.sparseBarrier (sparseVaidyaClass E ERR R) ERR E o) e μ seed φ (average (uniformIn (PolyEq A.val b k.toNat) x₀ B) φ) := by
  obtain ⟨I, h⟩ := sparse_inner hS h1 hk hne hbd hcone hright hf gi hd hB
  refine ⟨I, fun φ hφ M hM hφM o e _ μ hs seed => ?_⟩
  obtain ⟨B', hB', κ, hκ0, hκ1, hκ⟩ := h.law
  have hdim : (I.c : Int) - I.r = d := by have := h.dim; omega
  exact Driver.meanConverges_of I h.meas hκ0 hκ1 hκ hφ (C97_sparse_vaidya E hE ERR hR R hr h.indep (by have := h.dim; omega) I.k h.k I.v h.bdd I.x h.xA h.xpos B' hB'
    I.x h.xA h.xpos (φ ∘ I.L) (hφ.comp h.meas) M hM (fun y hy => hφM _ ((h.maps y hy.1).2 hy)) (by rw [hdim, h.keq]; exact hov) o e μ hs seed)

/-- **C99** (`SparseBallWalk`): on a polytope of dimension at least two that contains, in its affine hull, a ball of radius greater than the step. -/
theorem C99_sparse_ball (hd : 2 ≤ d) (hE : E.SparseLUExact) {R : ℝ} (hR : R ≠ 0) {u₀ : Fin d → ℝ} {ρ : ℝ} (hρ : |R| / Real.sqrt d < ρ)
    (hball : ∀ u, ∑ i, (chart x₀ B u i - chart x₀ B u₀ i) ^ 2 ≤ ρ ^ 2 → chart x₀ B u ∈ PolyEq A.val b k.toNat) :
    ∃ I : (sparseDriver glp E err fuel gi A b k).Inner, ∀ (φ : (Fin A.c → ℝ) → ℝ), Measurable φ → ∀ M > 0, (∀ y ∈ PolyEq A.val b k.toNat, |φ y| ≤ M) →
      ∀ (e : Env ℝ) [MeasurableSpace e.r.G] (μ : Measure e.r.G), IdealSource e.r μ → ∀ seed : Int,
        Driver.MeanConverges I (.sparseBall R E) e μ seed φ (average (uniformIn (PolyEq A.val b k.toNat) x₀ B) φ) := by
  obtain ⟨I, h⟩ := sparse_inner hS h1 hk hne hbd hcone hright hf gi (by omega) hB
  refine ⟨I, fun φ hφ M hM hφM e _ μ hs seed => ?_⟩
  obtain ⟨B', hB', κ, hκ0, hκ1, hκ⟩ := h.law
  obtain ⟨y₀, hy₀, hb'⟩ := h.ball hB hball
  have hdim : (I.c : ℝ) - I.r = d := by rw [← h.dim]; push_cast; ring
  obtain ⟨κ', hκ'0, hκ'1, hκ'⟩ := uniformOnEq_chart hB' hB' (x₀ := y₀) (x₁ := I.x) (h.xA.trans hy₀.symm) I.k.toNat
  refine Driver.meanConverges_of I h.meas (κ := κ * κ') (mul_ne_zero hκ0 hκ'0) (ENNReal.mul_ne_top hκ1 hκ'1) ?_ hφ
    (C97_sparse_ball hE h.indep (by have := h.dim; omega) h.k h.bdd hR hy₀ (by rw [hdim]; exact hρ) hb' hB' (φ ∘ I.L) (hφ.comp h.meas) M hM
      (fun y hy => hφM _ ((h.maps y hy.1).2 hy)) e μ hs (x := I.x) ⟨h.xA, tailPos_subset _ _ h.xpos⟩ seed)
  rw [hκ, hκ', Measure.map_smul, smul_smul]

/-- **C99** (`SparseHitAndRun`): on a polytope of dimension at least two, for every small enough tolerance of the chord search, the rows have a limit law `π` of their own,
within a constant times the tolerance of uniform on the caller's polytope (cf. C98). `D` bounds the diameter. -/
theorem C99_sparse_hitRun (hd : 2 ≤ d) (hE : E.SparseLUExact) (D : ℝ)
    (hD : ∀ y ∈ PolyEq A.val b k.toNat, ∀ z ∈ PolyEq A.val b k.toNat, ∑ i, (y i - z i) ^ 2 ≤ D ^ 2) :
    ∃ I : (sparseDriver glp E err fuel gi A b k).Inner, ∃ β C ε₀ : ℝ, 0 < β ∧ β ≤ 1 ∧ 0 ≤ C ∧ 0 < ε₀ ∧
      ∀ R ERR : ℝ, |D| < 2 ^ 10000 * |R| → 0 < ERR → ERR ≤ ε₀ →
      ∃ π : Measure (Fin A.c → ℝ), π univ = 1 ∧ π (PolyEq A.val b k.toNat)ᶜ = 0 ∧
        (∀ T, MeasurableSet T → |share π T - share (uniformIn (PolyEq A.val b k.toNat) x₀ B) T| ≤ C * ERR) ∧
        (∀ (φ : (Fin A.c → ℝ) → ℝ) (M : ℝ), Measurable φ → 0 < M → (∀ y ∈ PolyEq A.val b k.toNat, |φ y| ≤ M) →
          |average π φ - average (uniformIn (PolyEq A.val b k.toNat) x₀ B) φ| ≤ 2 * M * (C * ERR)) ∧
        ∀ (e : Env ℝ) [MeasurableSpace e.r.G] (μ : Measure e.r.G), IdealSource e.r μ → ∀ seed : Int,
          (∀ t, Driver.LawWithin I (.sparseHitRun R ERR E) e μ seed π t ((1 - β) ^ t)) ∧
          (∀ L gap : ℕ, Driver.JointWithin I (.sparseHitRun R ERR E) e μ seed π L gap (L * (1 - β) ^ gap)) ∧
          ∀ (φ : (Fin A.c → ℝ) → ℝ) (M : ℝ), Measurable φ → 0 < M → (∀ y ∈ PolyEq A.val b k.toNat, |φ y| ≤ M) →
            Driver.MeanConverges I (.sparseHitRun R ERR E) e μ seed φ (average π φ) := by
  obtain ⟨I, h⟩ := sparse_inner hS h1 hk hne hbd hcone hright hf gi (by omega) hB
  obtain ⟨B', hB', κ, hκ0, hκ1, hκ⟩ := h.law
  obtain ⟨β, C, ε₀, g1, g2, g3, g4, g5⟩ := C98_sparse_hitrun hE h.indep (by have := h.dim; omega) I.k h.k I.v I.x h.xA h.xpos D
    (fun y hy z hz => by
      rw [← h.iso]
      exact hD _ ((h.maps y hy.1).2 hy) _ ((h.maps z hz.1).2 hz)) B' hB'
  refine ⟨I, β, C, ε₀, g1, g2, g3, g4, fun R ERR hR hE0 hEη => ?_⟩
  obtain ⟨π, p1, p2, p3, p4, p5⟩ := g5 R ERR hR hE0 hEη
  have hone : π.map I.L = (1 : ℝ≥0∞) • π.map I.L := (one_smul _ _).symm
  have hP : MeasurableSet (PolyEq A.val b k.toNat) := measurableSet_polyEq _ _ _
  refine ⟨π.map I.L, ?_, ?_, fun T hT => ?_, fun φ M hφ hM hφM => ?_, fun e _ μ hs seed => ?_⟩
  · rw [Measure.map_apply h.meas MeasurableSet.univ, preimage_univ]
    exact p1
  · rw [Measure.map_apply h.meas hP.compl]
    exact measure_mono_null (fun y hy (hn : y ∈ {x | I.M *ᵥ x = I.v} ∩ TailPos I.c I.k.toNat) =>
      hy ((h.maps y hn.1).2 ⟨hn.1, tailPos_subset _ _ hn.2⟩)) p2
  · rw [share_map _ h.meas hT, hκ, share_smul _ hκ0 hκ1, share_map _ h.meas hT]
    exact p3 _ (h.meas hT)
  · rw [average_map _ h.meas hφ, hκ, average_smul _ hκ0 hκ1, average_map _ h.meas hφ]
    exact p4 _ M (hφ.comp h.meas) hM fun y hy => hφM _ ((h.maps y hy.1).2 hy)
  · obtain ⟨q1, q2, q3⟩ := p5 e μ hs I.x h.xA h.xpos seed
    exact ⟨fun t => Driver.lawWithin I h.inj h.meas one_ne_zero ENNReal.one_ne_top hone (q1 t),
      fun L gap => Driver.jointWithin I h.inj h.meas one_ne_zero ENNReal.one_ne_top hone (q2 L gap),
      fun φ M hφ hM hφM => Driver.meanConverges_of I h.meas one_ne_zero ENNReal.one_ne_top hone hφ
        (q3 _ M (hφ.comp h.meas) hM fun y hy => hφM _ ((h.maps y hy.1).2 hy))⟩

end Sparse

section Dense
variable {glp : Glpk ℝ} {E : Eigen ℝ} {err : ℝ} {A : DMat ℝ} (hS : FRSetting glp E err A) (h1 : err ≤ 1) (hQ : E.HouseholderExact) (hI : E.InvExact)
  {b : Fin A.r → ℝ} {k : Int} (hk : 0 < k ∧ k ≤ A.c) (hpos : ∃ x ∈ PolyEq A.val b k.toNat, x ∈ TailPos A.c k.toNat)
  (hbd : ∃ C, ∀ y ∈ PolyEq A.val b k.toNat, ∀ i, |y i| ≤ C) {fuel : ℕ} (hf : k.toNat < fuel)
  (gi : Int) {d : ℕ} {x₀ : Fin A.c → ℝ} {B : Matrix (Fin A.c) (Fin d) ℝ} (hB : IsChart (PolyEq A.val b k.toNat) x₀ B)
include hS h1 hQ hI hk hpos hbd hf hB

/-- **C99** (`denseFullWalkRun` with `BallWalk`). -/
theorem C99_dense_ball (hd : 2 ≤ d) {R : ℝ} (hR : R ≠ 0) {u₀ : Fin d → ℝ} {ρ : ℝ} (hρ : |R| / Real.sqrt d < ρ)
    (hball : ∀ u, ∑ i, (chart x₀ B u i - chart x₀ B u₀ i) ^ 2 ≤ ρ ^ 2 → chart x₀ B u ∈ PolyEq A.val b k.toNat) :
    ∃ I : (denseDriver glp E err fuel gi A b k).Inner, ∀ (φ : (Fin A.c → ℝ) → ℝ), Measurable φ → ∀ M > 0, (∀ y ∈ PolyEq A.val b k.toNat, |φ y| ≤ M) →
      ∀ (e : Env ℝ) [MeasurableSpace e.r.G] (μ : Measure e.r.G), IdealSource e.r μ → ∀ seed : Int,
        Driver.MeanConverges I (.ball R) e μ seed φ (average (uniformIn (PolyEq A.val b k.toNat) x₀ B) φ) := by
  obtain ⟨I, h⟩ := dense_inner hS h1 hQ hI hk hpos hbd hf gi hB
  refine ⟨I, fun φ hφ M hM hφM e _ μ hs seed => ?_⟩
  obtain ⟨κ, hκ0, hκ1, hκ⟩ := h.law
  obtain ⟨y₀, hb'⟩ := h.ball hB hball
  exact Driver.meanConverges_of I h.meas hκ0 hκ1 hκ hφ (C97_ball (by have := h.dim; omega) h.bdd hR (by rw [h.dim]; exact hρ) hb' (φ ∘ I.L)
    (hφ.comp h.meas) M hM (fun y hy => hφM _ ((h.maps y).2 hy)) e μ hs (x := I.x) (interior_subset _ _ h.x) I.k seed)

/-- **C99** (`DikinWalk`, on a polytope of dimension one). -/
theorem C99_dense_dikin (hd : d = 1) (hE : E.Exact) (R : ℝ) (hr : R ≠ 0) :
    ∃ I : (denseDriver glp E err fuel gi A b k).Inner, ∀ (φ : (Fin A.c → ℝ) → ℝ), Measurable φ → ∀ M > 0, (∀ y ∈ PolyEq A.val b k.toNat, |φ y| ≤ M) →
      ∀ (o : BState ℝ) (e : Env ℝ) [MeasurableSpace e.r.G] (μ : Measure e.r.G), IdealSource e.r μ → ∀ seed : Int,
        Driver.MeanConverges I (.barrier (dikinClass R) E o) e μ seed φ (average (uniformIn (PolyEq A.val b k.toNat) x₀ B) φ) := by
  obtain ⟨I, h⟩ := dense_inner hS h1 hQ hI hk hpos hbd hf gi hB
  refine ⟨I, fun φ hφ M hM hφM o e _ μ hs seed => ?_⟩
  obtain ⟨κ, hκ0, hκ1, hκ⟩ := h.law
  have hc := h.dim
  exact Driver.meanConverges_of I h.meas hκ0 hκ1 hκ hφ (C97_dense_dikin E hE R hr (by omega)
    (fun i j l _ _ => Fin.ext (by have := j.isLt; have := l.isLt; omega)) h.bdd h.x (φ ∘ I.L) (hφ.comp h.meas) M hM (fun y hy => hφM _ ((h.maps y).2 hy))
    o e μ hs I.k seed)

/-- **C99** (`HitAndRun`): on a polytope of dimension at least two, for every small enough tolerance of the chord search, the rows have a limit law `π` of their own, within
a constant times the tolerance of uniform on the caller's polytope (cf. C98). -/
theorem C99_dense_hitRun (hd : 2 ≤ d) :
    ∃ I : (denseDriver glp E err fuel gi A b k).Inner, ∃ β C ε₀ : ℝ, 0 < β ∧ β ≤ 1 ∧ 0 ≤ C ∧ 0 < ε₀ ∧
      ∀ R ERR : ℝ, R ≠ 0 → 0 < ERR → ERR ≤ ε₀ →
      ∃ π : Measure (Fin A.c → ℝ), π univ = 1 ∧ π (PolyEq A.val b k.toNat)ᶜ = 0 ∧
        (∀ T, MeasurableSet T → |share π T - share (uniformIn (PolyEq A.val b k.toNat) x₀ B) T| ≤ C * ERR) ∧
        (∀ (φ : (Fin A.c → ℝ) → ℝ) (M : ℝ), Measurable φ → 0 < M → (∀ y ∈ PolyEq A.val b k.toNat, |φ y| ≤ M) →
          |average π φ - average (uniformIn (PolyEq A.val b k.toNat) x₀ B) φ| ≤ 2 * M * (C * ERR)) ∧
        ∀ (e : Env ℝ) [MeasurableSpace e.r.G] (μ : Measure e.r.G), IdealSource e.r μ → ∀ seed : Int,
          (∀ t, Driver.LawWithin I (.hitRun R ERR) e μ seed π t ((1 - β) ^ t)) ∧
          (∀ L gap : ℕ, Driver.JointWithin I (.hitRun R ERR) e μ seed π L gap (L * (1 - β) ^ gap)) ∧
          ∀ (φ : (Fin A.c → ℝ) → ℝ) (M : ℝ), Measurable φ → 0 < M → (∀ y ∈ PolyEq A.val b k.toNat, |φ y| ≤ M) →
            Driver.MeanConverges I (.hitRun R ERR) e μ seed φ (average π φ) := by
  obtain ⟨I, h⟩ := dense_inner hS h1 hQ hI hk hpos hbd hf gi hB
  obtain ⟨κ, hκ0, hκ1, hκ⟩ := h.law
  obtain ⟨β, C, ε₀, g1, g2, g3, g4, g5⟩ := C98_hitrun (by have := h.dim; omega) I.M I.v ⟨_, h.x⟩ h.bdd
  refine ⟨I, β, C, ε₀, g1, g2, g3, g4, fun R ERR hR hE0 hEη => ?_⟩
  obtain ⟨π, p1, p2, p3, p4, p5⟩ := g5 R ERR hR hE0 hEη
  have hone : π.map I.L = (1 : ℝ≥0∞) • π.map I.L := (one_smul _ _).symm
  have hP : MeasurableSet (PolyEq A.val b k.toNat) := measurableSet_polyEq _ _ _
  refine ⟨π.map I.L, ?_, ?_, fun T hT => ?_, fun φ M hφ hM hφM => ?_, fun e _ μ hs seed => ?_⟩
  · rw [Measure.map_apply h.meas MeasurableSet.univ, preimage_univ]
    exact p1
  · rw [Measure.map_apply h.meas hP.compl]
    exact measure_mono_null (fun y hy (hn : y ∈ Interior I.M I.v) => hy ((h.maps y).2 (interior_subset _ _ hn))) p2
  · rw [share_map _ h.meas hT, hκ, share_smul _ hκ0 hκ1, share_map _ h.meas hT]
    exact p3 _ (h.meas hT)
  · rw [average_map _ h.meas hφ, hκ, average_smul _ hκ0 hκ1, average_map _ h.meas hφ]
    exact p4 _ M (hφ.comp h.meas) hM fun y hy => hφM _ ((h.maps y).2 hy)
  · obtain ⟨q1, q2, q3⟩ := p5 e μ hs I.x h.x I.k seed
    exact ⟨fun t => Driver.lawWithin I h.inj h.meas one_ne_zero ENNReal.one_ne_top hone (q1 t),
      fun L gap => Driver.jointWithin I h.inj h.meas one_ne_zero ENNReal.one_ne_top hone (q2 L gap),
      fun φ M hφ hM hφM => Driver.meanConverges_of I h.meas one_ne_zero ENNReal.one_ne_top hone hφ
        (q3 _ M (hφ.comp h.meas) hM fun y hy => hφM _ ((h.maps y).2 hy))⟩

end Dense

/-! ## Examples -/

/-- `sparseFullWalkRun` with a `SparseDikinWalk` on the segment `{x ≥ 0 | x₁ + x₂ = 1, x₃ = 0}`, which lies in a face: the mean of the first coordinate. -/
example : ∃ err, ∃ I : (sparseDriver exactGlpk exactEigen err 4 0 faceA faceB 3).Inner, ∀ (o : BState ℝ) (seed : Int),
      Driver.MeanConverges I (.sparseBarrier (sparseDikinClass 1) 1 exactEigen o) streamEnv streamLaw seed (fun y : Fin 3 → ℝ => y 0)
        (average (uniformIn (n := 3) (PolyEq faceA.val faceB 3) ![1 / 2, 1 / 2, 0] faceDir) fun y => y 0) := by
  obtain ⟨err, h1, hS⟩ := exists_frSetting faceA
  obtain ⟨I, h⟩ := C99_sparse_dikin hS h1 (b := faceB) (k := 3) (by decide) ⟨_, face_pos⟩ ⟨1, fun y hy => face_box hy⟩ face_not_cone face_right (fuel := 4)
    (by decide) 0 face_chart le_rfl exactEigen_exact 1 one_pos 1 one_ne_zero
  exact ⟨err, I, fun o seed => h _ (measurable_pi_apply (0 : Fin 3)) 1 one_pos (fun y hy => face_box hy 0) o streamEnv streamLaw streamRng_ideal seed⟩

/-- `denseFullWalkRun` with a `BallWalk` and a `HitAndRun` on the simplex. -/
example {T : Set (Fin 3 → ℝ)} (hT : MeasurableSet T) : ∃ err,
    (∃ I : (denseDriver exactGlpk exactEigen err 4 0 simplexA simplexB 3).Inner, ∀ seed : Int,
      Driver.MeanConverges I (.ball (1 / 4)) streamEnv streamLaw seed (T.indicator 1)
        (average (uniformIn (n := 3) (PolyEq simplexA.val simplexB 3) simplexMid simplexBasis) (T.indicator 1))) ∧
    ∃ I : (denseDriver exactGlpk exactEigen err 4 0 simplexA simplexB 3).Inner, ∃ C ε₀ : ℝ, 0 < ε₀ ∧ ∀ ERR, 0 < ERR → ERR ≤ ε₀ → ∃ a : ℝ,
      |a - average (uniformIn (n := 3) (PolyEq simplexA.val simplexB 3) simplexMid simplexBasis) (T.indicator 1)| ≤ 2 * 1 * (C * ERR) ∧
      ∀ seed : Int, Driver.MeanConverges I (.hitRun 1 ERR) streamEnv streamLaw seed (T.indicator 1) a := by
  obtain ⟨err, h1, hS⟩ := exists_frSetting simplexA
  have mT : Measurable (T.indicator (1 : (Fin 3 → ℝ) → ℝ)) := measurable_one.indicator hT
  have bT : ∀ y ∈ PolyEq simplexA.val simplexB 3, |T.indicator (1 : (Fin 3 → ℝ) → ℝ) y| ≤ 1 := fun (y : Fin 3 → ℝ) _ => by
    by_cases hy : y ∈ T <;> simp [hy]
  refine ⟨err, ?_, ?_⟩
  · obtain ⟨I, h⟩ := C99_dense_ball hS h1 exactEigen_householderQR exactEigen_exact.inv (b := simplexB) (k := 3) (by decide) ⟨_, simplexMid_mem, simplexMid_pos⟩
      simplexA_bdd (fuel := 4) (by decide) 0 simplexA_chart le_rfl (R := 1 / 4) (by norm_num) (u₀ := 0) simplex_step simplexA_disc
    exact ⟨I, fun seed => h _ mT 1 one_pos bT streamEnv streamLaw streamRng_ideal seed⟩
  · obtain ⟨I, β, C, ε₀, -, -, -, h4, h⟩ := C99_dense_hitRun hS h1 exactEigen_householderQR exactEigen_exact.inv (b := simplexB) (k := 3) (by decide)
      ⟨_, simplexMid_mem, simplexMid_pos⟩ simplexA_bdd (fuel := 4) (by decide) 0 simplexA_chart le_rfl
    refine ⟨I, C, ε₀, h4, fun ERR hE hE' => ?_⟩
    obtain ⟨π, -, -, -, h5, h6⟩ := h 1 ERR one_ne_zero hE hE'
    exact ⟨_, h5 _ 1 mT one_pos bT, fun seed => (h6 streamEnv streamLaw streamRng_ideal seed).2.2 _ 1 mT one_pos bT⟩

end PW
