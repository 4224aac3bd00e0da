import Verif.Lemmas.EndToEnd
import Verif.Props.SparseBarrierConverges
import Verif.Props.HitRunAverages
import Verif.Props.SparseJohnLaw
import Verif.Props.BallConverges
import Verif.Props.DenseBarrierConverges

/-!
# C84: the rows the full-run drivers return, in the long run
-/

namespace PW
open MeasureTheory Matrix Set
open scoped ENNReal

section Sparse
variable {glp : Glpk ℝ} {E : Eigen ℝ} {err : ℝ} {A : DMat ℝ} (hS : FRSetting glp E err A) (h1 : err ≤ 1) {b : Fin A.r → ℝ} {k : Int}
  (hk : 0 < k ∧ k ≤ A.c) (hne : (PolyEq A.val b k.toNat).Nonempty) (hbd : ∃ C, ∀ y ∈ PolyEq A.val b k.toNat, ∀ i, |y i| ≤ C)
  (hcone : ¬ CoordCone (PolyEq A.val b k.toNat) k.toNat) (hright : handedK A.val b k = rightK A.val b k.toNat) {fuel : ℕ} (hf : k.toNat < fuel)
  (gi : Int) {d : ℕ} {x₀ : Fin A.c → ℝ} {B : Matrix (Fin A.c) (Fin d) ℝ} (hB : IsChart (PolyEq A.val b k.toNat) x₀ B)
include hS h1 hk hne hbd hcone hright hf hB

/-- **C84** (`sparseFullWalkRun` with `SparseDikinWalk`): on a bounded non-empty polytope `P = {x | A x = b, last k coordinates ≥ 0}` of any dimension `d ≥ 1`, which
need not be full-dimensional in `{A x = b}`: if facial reduction hands the walk the right number of constrained coordinates, the law of the rows the driver
returns tends to the uniform distribution on `P`, in the coordinates of the caller. -/
theorem C84_sparse_dikin (hd : 1 ≤ d) (hE : E.Exact) (ERR : ℝ) (hR : 0 < ERR) (R : ℝ) (hr : R ≠ 0) :
    ∃ I : (sparseDriver glp E err fuel gi A b k).Inner, ∀ ε > 0, ∃ t₀ : ℕ, ∀ (o : BState ℝ) (e : Env ℝ) [MeasurableSpace e.r.G] (μ : Measure e.r.G),
      IdealSource e.r μ → ∀ seed : Int, ∀ t ≥ t₀,
        Driver.LawWithin I (.sparseBarrier (sparseDikinClass R) ERR E o) e μ seed (uniformIn (PolyEq A.val b k.toNat) x₀ B) t ε := by
  obtain ⟨I, h⟩ := sparse_inner hS h1 hk hne hbd hcone hright hf gi hd hB
  refine ⟨I, fun ε hε => ?_⟩
  obtain ⟨B', hB', κ, hκ0, hκ1, hκ⟩ := h.law
  obtain ⟨t₀, ht₀⟩ := C64_dikin E hE ERR hR R hr h.indep (by have := h.dim; omega) I.k h.k I.v h.bdd I.x h.xA h.xpos B' hB' I.x h.xA h.xpos ε hε
  exact ⟨t₀, fun o e _ μ hs seed t ht => Driver.lawWithin I h.inj h.meas hκ0 hκ1 hκ (ht₀ o e μ hs seed t ht)⟩

/-- **C84** (`SparseDikinWalk`, averages): so do the averages over the rows. -/
theorem C84_sparse_dikin_average (hd : 1 ≤ d) (hE : E.Exact) (ERR : ℝ) (hR : 0 < ERR) (R : ℝ) (hr : R ≠ 0) :
    ∃ I : (sparseDriver glp E err fuel gi A b k).Inner, ∀ (φ : (Fin A.c → ℝ) → ℝ), Measurable φ → ∀ M > 0, (∀ y ∈ PolyEq A.val b k.toNat, |φ y| ≤ M) →
      ∀ ε > 0, ∀ δ > 0, ∃ L₀ : ℕ, ∀ (o : BState ℝ) (e : Env ℝ) [MeasurableSpace e.r.G] (μ : Measure e.r.G), IdealSource e.r μ → ∀ seed : Int, ∀ L ≥ L₀,
        Driver.MeanWithin I (.sparseBarrier (sparseDikinClass R) ERR E o) e μ seed φ (average (uniformIn (PolyEq A.val b k.toNat) x₀ B) φ) L ε δ := by
  obtain ⟨I, h⟩ := sparse_inner hS h1 hk hne hbd hcone hright hf gi hd hB
  refine ⟨I, fun φ hφ M hM hφM ε hε δ hδ => ?_⟩
  obtain ⟨B', hB', κ, hκ0, hκ1, hκ⟩ := h.law
  obtain ⟨L₀, hL₀⟩ := C65_dikin E hE ERR hR R hr h.indep (by have := h.dim; omega) I.k h.k I.v h.bdd I.x h.xA h.xpos B' hB' I.x h.xA h.xpos
    (φ ∘ I.L) (hφ.comp h.meas) M hM (fun y hy => hφM _ ((h.maps y hy.1).2 hy)) ε δ hε hδ
  exact ⟨L₀, fun o e _ μ hs seed L hL => Driver.meanWithin I h.inj h.meas hκ0 hκ1 hκ hφ (hL₀ o e μ hs seed L hL)⟩

/-- **C84** (`SparseVaidyaWalk`), when the `int` product of the number of constraints and the dimension does not overflow. -/
theorem C84_sparse_vaidya (hd : 1 ≤ d) (hE : E.Exact) (ERR : ℝ) (hR : 0 < ERR) (R : ℝ) (hr : R ≠ 0) (hov : handedK A.val b k * d ≤ 2 ^ 31 - 1) :
    ∃ I : (sparseDriver glp E err fuel gi A b k).Inner, ∀ ε > 0, ∃ t₀ : ℕ, ∀ (o : BState ℝ) (e : Env ℝ) [MeasurableSpace e.r.G] (μ : Measure e.r.G),
      IdealSource e.r μ → ∀ seed : Int, ∀ t ≥ t₀,
        Driver.LawWithin I (.sparseBarrier (sparseVaidyaClass E ERR R) ERR E o) e μ seed (uniformIn (PolyEq A.val b k.toNat) x₀ B) t ε := by
  obtain ⟨I, h⟩ := sparse_inner hS h1 hk hne hbd hcone hright hf gi hd hB
  refine ⟨I, fun ε hε => ?_⟩
  obtain ⟨B', hB', κ, hκ0, hκ1, hκ⟩ := h.law
  have hdim : (I.c : Int) - I.r = d := by have := h.dim; omega
  obtain ⟨t₀, ht₀⟩ := C64_vaidya E hE ERR hR R hr h.indep (by have := h.dim; omega) I.k h.k I.v h.bdd I.x h.xA h.xpos B' hB' I.x h.xA h.xpos
    (by rw [hdim, h.keq]; exact hov) ε hε
  exact ⟨t₀, fun o e _ μ hs seed t ht => Driver.lawWithin I h.inj h.meas hκ0 hκ1 hκ (ht₀ o e μ hs seed t ht)⟩

/-- **C84** (`SparseVaidyaWalk`, averages). -/
theorem C84_sparse_vaidya_average (hd : 1 ≤ d) (hE : E.Exact) (ERR : ℝ) (hR : 0 < ERR) (R : ℝ) (hr : R ≠ 0) (hov : handedK A.val b k * d ≤ 2 ^ 31 - 1) :
    ∃ I : (sparseDriver glp E err fuel gi A b k).Inner, ∀ (φ : (Fin A.c → ℝ) → ℝ), Measurable φ → ∀ M > 0, (∀ y ∈ PolyEq A.val b k.toNat, |φ y| ≤ M) →
      ∀ ε > 0, ∀ δ > 0, ∃ L₀ : ℕ, ∀ (o : BState ℝ) (e : Env ℝ) [MeasurableSpace e.r.G] (μ : Measure e.r.G), IdealSource e.r μ → ∀ seed : Int, ∀ L ≥ L₀,
        Driver.MeanWithin I (.sparseBarrier (sparseVaidyaClass E ERR R) ERR E o) e μ seed φ (average (uniformIn (PolyEq A.val b k.toNat) x₀ B) φ) L ε δ := by
  obtain ⟨I, h⟩ := sparse_inner hS h1 hk hne hbd hcone hright hf gi hd hB
  refine ⟨I, fun φ hφ M hM hφM ε hε δ hδ => ?_⟩
  obtain ⟨B', hB', κ, hκ0, hκ1, hκ⟩ := h.law
  have hdim : (I.c : Int) - I.r = d := by have := h.dim; omega
  obtain ⟨L₀, hL₀⟩ := C65_vaidya E hE ERR hR R hr h.indep (by have := h.dim; omega) I.k h.k I.v h.bdd I.x h.xA h.xpos B' hB' I.x h.xA h.xpos
    (by rw [hdim, h.keq]; exact hov) (φ ∘ I.L) (hφ.comp h.meas) M hM (fun y hy => hφM _ ((h.maps y hy.1).2 hy)) ε δ hε hδ
  exact ⟨L₀, fun o e _ μ hs seed L hL => Driver.meanWithin I h.inj h.meas hκ0 hκ1 hκ hφ (hL₀ o e μ hs seed L hL)⟩

/-- **C84** (`SparseHitAndRun`): for a small enough tolerance of the chord search, on a polytope of dimension at least two. `D` bounds the diameter of `P`. -/
theorem C84_sparse_hitRun (hd : 2 ≤ d) (hE : E.SparseLUExact) (D : ℝ)
    (hD : ∀ y ∈ PolyEq A.val b k.toNat, ∀ z ∈ PolyEq A.val b k.toNat, ∑ i, (y i - z i) ^ 2 ≤ D ^ 2) :
    ∃ I : (sparseDriver glp E err fuel gi A b k).Inner, ∀ ε > 0, ∃ η > 0, ∃ t₀ : ℕ, ∀ R ERR : ℝ, |D| < 2 ^ 10000 * |R| → 0 < ERR → ERR ≤ η →
      ∀ (e : Env ℝ) [MeasurableSpace e.r.G] (μ : Measure e.r.G), IdealSource e.r μ → ∀ seed : Int, ∀ t ≥ t₀,
        Driver.LawWithin I (.sparseHitRun R ERR E) e μ seed (uniformIn (PolyEq A.val b k.toNat) x₀ B) t ε := by
  obtain ⟨I, h⟩ := sparse_inner hS h1 hk hne hbd hcone hright hf gi (by omega) hB
  refine ⟨I, fun ε hε => ?_⟩
  obtain ⟨B', hB', κ, hκ0, hκ1, hκ⟩ := h.law
  obtain ⟨η, hη, t₀, ht₀⟩ := C60_sparse_limit hE h.indep (by have := h.dim; omega) I.k h.k I.v I.x h.xA h.xpos D
    (fun y hy z hz => by
      rw [← h.iso]
      exact hD _ ((h.maps y hy.1).2 hy) _ ((h.maps z hz.1).2 hz)) B' hB' ε hε
  exact ⟨η, hη, t₀, fun R ERR hR hE0 hEη e _ μ hs seed t ht =>
    Driver.lawWithin I h.inj h.meas hκ0 hκ1 hκ (ht₀ R ERR hR hE0 hEη e μ hs I.x h.xA h.xpos seed t ht)⟩

/-- **C84** (`SparseHitAndRun`, averages). -/
theorem C84_sparse_hitRun_average (hd : 2 ≤ d) (hE : E.SparseLUExact) (D : ℝ)
    (hD : ∀ y ∈ PolyEq A.val b k.toNat, ∀ z ∈ PolyEq A.val b k.toNat, ∑ i, (y i - z i) ^ 2 ≤ D ^ 2) :
    ∃ I : (sparseDriver glp E err fuel gi A b k).Inner, ∀ M > 0, ∀ ε > 0, ∀ δ > 0, ∃ η > 0, ∃ L₀ : ℕ, ∀ R ERR : ℝ, |D| < 2 ^ 10000 * |R| → 0 < ERR → ERR ≤ η →
      ∀ (e : Env ℝ) [MeasurableSpace e.r.G] (μ : Measure e.r.G), IdealSource e.r μ → ∀ seed : Int, ∀ L ≥ L₀,
        ∀ (φ : (Fin A.c → ℝ) → ℝ), Measurable φ → (∀ y ∈ PolyEq A.val b k.toNat, |φ y| ≤ M) →
        Driver.MeanWithin I (.sparseHitRun R ERR E) e μ seed φ (average (uniformIn (PolyEq A.val b k.toNat) x₀ B) φ) L ε δ := by
  obtain ⟨I, h⟩ := sparse_inner hS h1 hk hne hbd hcone hright hf gi (by omega) hB
  refine ⟨I, fun M hM ε hε δ hδ => ?_⟩
  obtain ⟨B', hB', κ, hκ0, hκ1, hκ⟩ := h.law
  obtain ⟨η, hη, L₀, hL₀⟩ := C61_sparse_limit hE h.indep (by have := h.dim; omega) I.k h.k I.v I.x h.xA h.xpos D
    (fun y hy z hz => by
      rw [← h.iso]
      exact hD _ ((h.maps y hy.1).2 hy) _ ((h.maps z hz.1).2 hz)) B' hB' M ε δ hM hε hδ
  exact ⟨η, hη, L₀, fun R ERR hR hE0 hEη e _ μ hs seed L hL φ hφ hφM =>
    Driver.meanWithin I h.inj h.meas hκ0 hκ1 hκ hφ (hL₀ R ERR hR hE0 hEη e μ hs I.x h.xA h.xpos seed L hL (φ ∘ I.L) (hφ.comp h.meas)
      (fun y hy => hφM _ ((h.maps y hy.1).2 hy)))⟩

omit hS h1 hk hne hbd hcone hright hf in
theorem SparseInner.ball {gi : Int} {I : (sparseDriver glp E err fuel gi A b k).Inner} {K : Int}
    (h : SparseInner I (PolyEq A.val b k.toNat) x₀ B K) {u₀ : Fin d → ℝ} {ρ : ℝ}
    (hball : ∀ u, ∑ i, (chart x₀ B u i - chart x₀ B u₀ i) ^ 2 ≤ ρ ^ 2 → chart x₀ B u ∈ PolyEq A.val b k.toNat) :
    ∃ y₀, I.M *ᵥ y₀ = I.v ∧ ∀ y, I.M *ᵥ y = I.v → ∑ i, (y i - y₀ i) ^ 2 ≤ ρ ^ 2 → y ∈ PolyEq I.M I.v I.k.toNat := by
  obtain ⟨y₀, hy₀, e₀⟩ := h.onto u₀
  refine ⟨y₀, hy₀, fun y hy hle => ?_⟩
  obtain ⟨u, hu⟩ := h.hull y hy
  rw [← h.iso, e₀, ← hu] at hle
  exact (h.maps y hy).1 (hu ▸ hball u hle)

/-- **C84** (`SparseBallWalk`): on a polytope of dimension at least two that contains, in its affine hull, a ball of radius greater than the step. -/
theorem C84_sparse_ball (hd : 2 ≤ d) (hE : E.SparseLUExact) {R : ℝ} (hR : R ≠ 0) {u₀ : Fin d → ℝ} {ρ : ℝ} (hρ : |R| / Real.sqrt d < ρ)
    (hball : ∀ u, ∑ i, (chart x₀ B u i - chart x₀ B u₀ i) ^ 2 ≤ ρ ^ 2 → chart x₀ B u ∈ PolyEq A.val b k.toNat) :
    ∃ I : (sparseDriver glp E err fuel gi A b k).Inner, ∀ ε > 0, ∃ t₀ : ℕ, ∀ (e : Env ℝ) [MeasurableSpace e.r.G] (μ : Measure e.r.G),
      IdealSource e.r μ → ∀ seed : Int, ∀ t ≥ t₀,
        Driver.LawWithin I (.sparseBall R E) e μ seed (uniformIn (PolyEq A.val b k.toNat) x₀ B) t ε := by
  obtain ⟨I, h⟩ := sparse_inner hS h1 hk hne hbd hcone hright hf gi (by omega) hB
  refine ⟨I, fun ε hε => ?_⟩
  obtain ⟨B', hB', κ, hκ0, hκ1, hκ⟩ := h.law
  obtain ⟨y₀, hy₀, hb'⟩ := h.ball hB hball
  have hdim : (I.c : ℝ) - I.r = d := by rw [← h.dim]; push_cast; ring
  obtain ⟨κ', hκ'0, hκ'1, hκ'⟩ := uniformOnEq_chart hB' hB' (x₀ := y₀) (x₁ := I.x) (h.xA.trans hy₀.symm) I.k.toNat
  obtain ⟨t₀, ht₀⟩ := C76_limit hE h.indep (by have := h.dim; omega) h.k h.bdd hR hy₀ (by rw [hdim]; exact hρ) hb' hB' ε hε
  refine ⟨t₀, fun e _ μ hs seed t ht => Driver.lawWithin I h.inj h.meas (κ := κ * κ') (mul_ne_zero hκ0 hκ'0) (ENNReal.mul_ne_top hκ1 hκ'1) ?_
    (ht₀ e μ hs I.x ⟨h.xA, tailPos_subset _ _ h.xpos⟩ seed t ht)⟩
  rw [hκ, hκ', Measure.map_smul, smul_smul]

/-- **C84** (`SparseBallWalk`, averages). -/
theorem C84_sparse_ball_average (hd : 2 ≤ d) (hE : E.SparseLUExact) {R : ℝ} (hR : R ≠ 0) {u₀ : Fin d → ℝ} {ρ : ℝ} (hρ : |R| / Real.sqrt d < ρ)
    (hball : ∀ u, ∑ i, (chart x₀ B u i - chart x₀ B u₀ i) ^ 2 ≤ ρ ^ 2 → chart x₀ B u ∈ PolyEq A.val b k.toNat) :
    ∃ I : (sparseDriver glp E err fuel gi A b k).Inner, ∀ (φ : (Fin A.c → ℝ) → ℝ), Measurable φ → ∀ M > 0, (∀ y ∈ PolyEq A.val b k.toNat, |φ y| ≤ M) →
      ∀ ε > 0, ∀ δ > 0, ∃ L₀ : ℕ, ∀ (e : Env ℝ) [MeasurableSpace e.r.G] (μ : Measure e.r.G), IdealSource e.r μ → ∀ seed : Int, ∀ L ≥ L₀,
        Driver.MeanWithin I (.sparseBall R E) e μ seed φ (average (uniformIn (PolyEq A.val b k.toNat) x₀ B) φ) L ε δ := by
  obtain ⟨I, h⟩ := sparse_inner hS h1 hk hne hbd hcone hright hf gi (by omega) hB
  refine ⟨I, fun φ hφ M hM hφM ε hε δ hδ => ?_⟩
  obtain ⟨B', hB', κ, hκ0, hκ1, hκ⟩ := h.law
  obtain ⟨y₀, hy₀, hb'⟩ := h.ball hB hball
  have hdim : (I.c : ℝ) - I.r = d := by rw [← h.dim]; push_cast; ring
  obtain ⟨κ', hκ'0, hκ'1, hκ'⟩ := uniformOnEq_chart hB' hB' (x₀ := y₀) (x₁ := I.x) (h.xA.trans hy₀.symm) I.k.toNat
  obtain ⟨L₀, hL₀⟩ := C76_average hE h.indep (by have := h.dim; omega) h.k h.bdd hR hy₀ (by rw [hdim]; exact hρ) hb' hB'
    (x := I.x) ⟨h.xA, tailPos_subset _ _ h.xpos⟩ (φ ∘ I.L) (hφ.comp h.meas) M hM (fun y hy => hφM _ ((h.maps y hy.1).2 hy)) ε δ hε hδ
  refine ⟨L₀, fun e _ μ hs seed L hL => Driver.meanWithin I h.inj h.meas (κ := κ * κ') (mul_ne_zero hκ0 hκ'0) (ENNReal.mul_ne_top hκ1 hκ'1) ?_ hφ
    (hL₀ e μ hs seed L hL)⟩
  rw [hκ, hκ', Measure.map_smul, smul_smul]

/-- **C84** (`SparseJohnWalk`): if the number of constraints is at least the dimension; up to any iteration `H`, if the tolerance of the weight iteration is small
enough for that `H` and its limit large enough for that tolerance. -/
theorem C84_sparse_john (hd : 1 ≤ d) (hdk : (d : Int) ≤ handedK A.val b k) (hE : E.Exact) (ERR : ℝ) (hR : 0 < ERR) (R : ℝ) (hr : R ≠ 0) :
    ∃ I : (sparseDriver glp E err fuel gi A b k).Inner, ∀ ε > 0, ∃ t₀ : ℕ, ∀ H : ℕ, ∃ LIM₀ > 0, ∀ (LIM : ℝ) (M : Int), 0 < LIM → LIM < LIM₀ →
      3 * (handedK A.val b k : ℝ) ^ 2 / d < M * LIM ^ 2 → ∀ (o : BState ℝ) (e : Env ℝ) [MeasurableSpace e.r.G] (μ : Measure e.r.G),
      IdealSource e.r μ → ∀ seed : Int, ∀ t, t₀ ≤ t → t ≤ H →
        Driver.LawWithin I (.sparseBarrier (sparseJohnClass E ERR R LIM M) ERR E o) e μ seed (uniformIn (PolyEq A.val b k.toNat) x₀ B) t ε := by
  obtain ⟨I, h⟩ := sparse_inner hS h1 hk hne hbd hcone hright hf gi hd hB
  refine ⟨I, fun ε hε => ?_⟩
  obtain ⟨B', hB', κ, hκ0, hκ1, hκ⟩ := h.law
  have hdim : (I.c : Int) - I.r = d := by have := h.dim; omega
  have hdimR : (I.c : ℝ) - I.r = d := by rw [← h.dim]; push_cast; ring
  obtain ⟨t₀, ht₀⟩ := C79_rows E hE ERR hR R hr h.indep (by have := h.dim; omega) I.k h.k (by rw [hdim, h.keq]; exact hdk) I.v h.bdd I.x h.xA h.xpos B' hB'
    I.x h.xA h.xpos ε hε
  refine ⟨t₀, fun H => ?_⟩
  obtain ⟨LIM₀, hL0, hL⟩ := ht₀ H
  exact ⟨LIM₀, hL0, fun LIM M h0 h2 h3 o e _ μ hs seed t ht htH => Driver.lawWithin I h.inj h.meas hκ0 hκ1 hκ
    (hL LIM M h0 h2 (by rw [hdimR, h.keq]; exact h3) o e μ hs seed t ht htH)⟩

end Sparse

section Dense
variable {glp : Glpk ℝ} {E : Eigen ℝ} {err : ℝ} {A : DMat ℝ} (hS : FRSetting glp E err A) (h1 : err ≤ 1) (hQ : E.HouseholderExact) (hI : E.InvExact)
  {b : Fin A.r → ℝ} {k : Int} (hk : 0 < k ∧ k ≤ A.c) (hpos : ∃ x ∈ PolyEq A.val b k.toNat, x ∈ TailPos A.c k.toNat)
  (hbd : ∃ C, ∀ y ∈ PolyEq A.val b k.toNat, ∀ i, |y i| ≤ C) {fuel : ℕ} (hf : k.toNat < fuel)
  (gi : Int) {d : ℕ} {x₀ : Fin A.c → ℝ} {B : Matrix (Fin A.c) (Fin d) ℝ} (hB : IsChart (PolyEq A.val b k.toNat) x₀ B)
include hS h1 hQ hI hk hpos hbd hf hB

/-- **C84** (`denseFullWalkRun` with `HitAndRun`): on a bounded polytope `P = {x | A x = b, last k coordinates ≥ 0}` of dimension at least two on which no constrained
coordinate vanishes (otherwise the driver does not return, `C70_dense`), for a small enough tolerance of the chord search the law of the rows the driver returns tends
to the uniform distribution on `P`, in the coordinates of the caller. The rows of `A` may be redundant. -/
theorem C84_dense_hitRun (hd : 2 ≤ d) :
    ∃ I : (denseDriver glp E err fuel gi A b k).Inner, ∀ ε > 0, ∃ η > 0, ∃ t₀ : ℕ, ∀ R ERR : ℝ, R ≠ 0 → 0 < ERR → ERR ≤ η →
      ∀ (e : Env ℝ) [MeasurableSpace e.r.G] (μ : Measure e.r.G), IdealSource e.r μ → ∀ seed : Int, ∀ t ≥ t₀,
        Driver.LawWithin I (.hitRun R ERR) e μ seed (uniformIn (PolyEq A.val b k.toNat) x₀ B) t ε := by
  obtain ⟨I, h⟩ := dense_inner hS h1 hQ hI hk hpos hbd hf gi hB
  refine ⟨I, fun ε hε => ?_⟩
  obtain ⟨κ, hκ0, hκ1, hκ⟩ := h.law
  obtain ⟨η, hη, t₀, ht₀⟩ := C60_dense_limit (by have := h.dim; omega) I.M I.v ⟨_, h.x⟩ h.bdd ε hε
  exact ⟨η, hη, t₀, fun R ERR hR hE0 hEη e _ μ hs seed t ht =>
    Driver.lawWithin I h.inj h.meas hκ0 hκ1 hκ (ht₀ R ERR hR hE0 hEη e μ hs I.x h.x I.k seed t ht)⟩

/-- **C84** (`HitAndRun`, averages). -/
theorem C84_dense_hitRun_average (hd : 2 ≤ d) :
    ∃ I : (denseDriver glp E err fuel gi A b k).Inner, ∀ M > 0, ∀ ε > 0, ∀ δ > 0, ∃ η > 0, ∃ L₀ : ℕ, ∀ R ERR : ℝ, R ≠ 0 → 0 < ERR → ERR ≤ η →
      ∀ (e : Env ℝ) [MeasurableSpace e.r.G] (μ : Measure e.r.G), IdealSource e.r μ → ∀ seed : Int, ∀ L ≥ L₀,
        ∀ (φ : (Fin A.c → ℝ) → ℝ), Measurable φ → (∀ y ∈ PolyEq A.val b k.toNat, |φ y| ≤ M) →
        Driver.MeanWithin I (.hitRun R ERR) e μ seed φ (average (uniformIn (PolyEq A.val b k.toNat) x₀ B) φ) L ε δ := by
  obtain ⟨I, h⟩ := dense_inner hS h1 hQ hI hk hpos hbd hf gi hB
  refine ⟨I, fun M hM ε hε δ hδ => ?_⟩
  obtain ⟨κ, hκ0, hκ1, hκ⟩ := h.law
  obtain ⟨η, hη, L₀, hL₀⟩ := C61_dense_limit (by have := h.dim; omega) I.M I.v ⟨_, h.x⟩ h.bdd M ε δ hM hε hδ
  exact ⟨η, hη, L₀, fun R ERR hR hE0 hEη e _ μ hs seed L hL φ hφ hφM =>
    Driver.meanWithin I h.inj h.meas hκ0 hκ1 hκ hφ (hL₀ R ERR hR hE0 hEη e μ hs I.x h.x I.k seed L hL (φ ∘ I.L) (hφ.comp h.meas)
      (fun y hy => hφM _ ((h.maps y).2 hy)))⟩

omit hS h1 hQ hI hk hpos hbd hf in
theorem DenseInner.ball {gi : Int} {I : (denseDriver glp E err fuel gi A b k).Inner} (h : DenseInner I (PolyEq A.val b k.toNat) x₀ B) {u₀ : Fin d → ℝ} {ρ : ℝ}
    (hball : ∀ u, ∑ i, (chart x₀ B u i - chart x₀ B u₀ i) ^ 2 ≤ ρ ^ 2 → chart x₀ B u ∈ PolyEq A.val b k.toNat) :
    ∃ y₀ : Fin I.c → ℝ, ∀ y, ∑ i, (y i - y₀ i) ^ 2 ≤ ρ ^ 2 → y ∈ Poly I.M I.v := by
  obtain ⟨y₀, e₀⟩ := h.onto u₀
  refine ⟨y₀, fun y hle => ?_⟩
  obtain ⟨u, hu⟩ := h.hull y
  rw [← h.iso, e₀, ← hu] at hle
  exact (h.maps y).1 (hu ▸ hball u hle)

/-- **C84** (`BallWalk`): on a polytope of dimension at least two that contains, in its affine hull, a ball of radius greater than the step. -/
theorem C84_dense_ball (hd : 2 ≤ d) {R : ℝ} (hR : R ≠ 0) {u₀ : Fin d → ℝ} {ρ : ℝ} (hρ : |R| / Real.sqrt d < ρ)
    (hball : ∀ u, ∑ i, (chart x₀ B u i - chart x₀ B u₀ i) ^ 2 ≤ ρ ^ 2 → chart x₀ B u ∈ PolyEq A.val b k.toNat) :
    ∃ I : (denseDriver glp E err fuel gi A b k).Inner, ∀ ε > 0, ∃ t₀ : ℕ, ∀ (e : Env ℝ) [MeasurableSpace e.r.G] (μ : Measure e.r.G),
      IdealSource e.r μ → ∀ seed : Int, ∀ t ≥ t₀,
        Driver.LawWithin I (.ball R) e μ seed (uniformIn (PolyEq A.val b k.toNat) x₀ B) t ε := by
  obtain ⟨I, h⟩ := dense_inner hS h1 hQ hI hk hpos hbd hf gi hB
  refine ⟨I, fun ε hε => ?_⟩
  obtain ⟨κ, hκ0, hκ1, hκ⟩ := h.law
  obtain ⟨y₀, hb'⟩ := h.ball hB hball
  obtain ⟨t₀, ht₀⟩ := C75_limit (by have := h.dim; omega) h.bdd hR (by rw [h.dim]; exact hρ) hb' ε hε
  exact ⟨t₀, fun e _ μ hs seed t ht => Driver.lawWithin I h.inj h.meas hκ0 hκ1 hκ (ht₀ e μ hs I.x (interior_subset _ _ h.x) I.k seed t ht)⟩

/-- **C84** (`BallWalk`, averages). -/
theorem C84_dense_ball_average (hd : 2 ≤ d) {R : ℝ} (hR : R ≠ 0) {u₀ : Fin d → ℝ} {ρ : ℝ} (hρ : |R| / Real.sqrt d < ρ)
    (hball : ∀ u, ∑ i, (chart x₀ B u i - chart x₀ B u₀ i) ^ 2 ≤ ρ ^ 2 → chart x₀ B u ∈ PolyEq A.val b k.toNat) :
    ∃ I : (denseDriver glp E err fuel gi A b k).Inner, ∀ (φ : (Fin A.c → ℝ) → ℝ), Measurable φ → ∀ M > 0, (∀ y ∈ PolyEq A.val b k.toNat, |φ y| ≤ M) →
      ∀ ε > 0, ∀ δ > 0, ∃ L₀ : ℕ, ∀ (e : Env ℝ) [MeasurableSpace e.r.G] (μ : Measure e.r.G), IdealSource e.r μ → ∀ seed : Int, ∀ L ≥ L₀,
        Driver.MeanWithin I (.ball R) e μ seed φ (average (uniformIn (PolyEq A.val b k.toNat) x₀ B) φ) L ε δ := by
  obtain ⟨I, h⟩ := dense_inner hS h1 hQ hI hk hpos hbd hf gi hB
  refine ⟨I, fun φ hφ M hM hφM ε hε δ hδ => ?_⟩
  obtain ⟨κ, hκ0, hκ1, hκ⟩ := h.law
  obtain ⟨y₀, hb'⟩ := h.ball hB hball
  obtain ⟨L₀, hL₀⟩ := C75_average (by have := h.dim; omega) h.bdd hR (by rw [h.dim]; exact hρ) hb' (x := I.x) (interior_subset _ _ h.x) (φ ∘ I.L)
    (hφ.comp h.meas) M hM (fun y hy => hφM _ ((h.maps y).2 hy)) ε δ hε hδ
  exact ⟨L₀, fun e _ μ hs seed L hL => Driver.meanWithin I h.inj h.meas hκ0 hκ1 hκ hφ (hL₀ e μ hs I.k seed L hL)⟩

/-- **C84** (`DikinWalk`): on a polytope of dimension one. (In higher dimension the walk `denseFullWalkRun` runs need not have the uniform distribution as a limit, `C78`.) -/
theorem C84_dense_dikin (hd : d = 1) (hE : E.Exact) (R : ℝ) (hr : R ≠ 0) :
    ∃ I : (denseDriver glp E err fuel gi A b k).Inner, ∀ ε > 0, ∃ t₀ : ℕ, ∀ (o : BState ℝ) (e : Env ℝ) [MeasurableSpace e.r.G] (μ : Measure e.r.G),
      IdealSource e.r μ → ∀ seed : Int, ∀ t ≥ t₀,
        Driver.LawWithin I (.barrier (dikinClass R) E o) e μ seed (uniformIn (PolyEq A.val b k.toNat) x₀ B) t ε := by
  obtain ⟨I, h⟩ := dense_inner hS h1 hQ hI hk hpos hbd hf gi hB
  refine ⟨I, fun ε hε => ?_⟩
  obtain ⟨κ, hκ0, hκ1, hκ⟩ := h.law
  have hc := h.dim
  obtain ⟨t₀, ht₀⟩ := C66_dikin E hE R hr (by omega) (fun i j l _ _ => Fin.ext (by have := j.isLt; have := l.isLt; omega)) h.bdd h.x ε hε
  exact ⟨t₀, fun o e _ μ hs seed t ht => Driver.lawWithin I h.inj h.meas hκ0 hκ1 hκ (ht₀ o e μ hs I.k seed t ht)⟩

end Dense

/-! ## When the walk is handed the right number of constraints -/

/-- With independent rows and a point whose constrained coordinates are all positive. -/
theorem handedK_regular {m n : ℕ} {A : Matrix (Fin m) (Fin n) ℝ} (hA : IndepRows A) {b : Fin m → ℝ} {k : Int} (hk : 0 < k ∧ k ≤ n)
    (hpos : ∃ x ∈ PolyEq A b k.toNat, x ∈ TailPos n k.toNat) : handedK A b k = rightK A b k.toNat := by
  obtain ⟨x, hx, hxp⟩ := hpos
  have hs : ∀ i, Survives A b k.toNat i ↔ ∃ j : Fin n, id j = i := fun i => by
    refine ⟨fun _ => ⟨i, rfl⟩, fun _ => ?_⟩
    by_cases hi : i.val < n - k.toNat
    · exact .inl hi
    · exact .inr ⟨x, hx, (hxp i (by omega)).ne'⟩
  have h1 := survivorCount_eq (M := A) (b := b) (k := k.toNat) Function.injective_id hs
  have h2 := survivorRank_eq hs
  have h3 : A.submatrix id id = A := rfl
  rw [h3, hA.rank] at h2
  exact (C71_right_iff ⟨m, n, A⟩ b hk).2 (by
    show (m : Int) - survivorRank A b k.toNat = n - survivorCount A b k.toNat
    omega)

/-- Around a point of `{A x = b}` with positive constrained coordinates, a basis of the kernel of `A` gives coordinates. -/
theorem isChart_of_kernel {m n d : ℕ} {A : Matrix (Fin m) (Fin n) ℝ} {b : Fin m → ℝ} {k : ℕ} {B : Matrix (Fin n) (Fin d) ℝ} (hB : IsKernelBasis A B)
    {x₀ : Fin n → ℝ} (hx : A *ᵥ x₀ = b) (hpos : x₀ ∈ TailPos n k) : IsChart (PolyEq A b k) x₀ B where
  inj := hB.inj
  covers x hx' := by
    obtain ⟨u, hu⟩ := hB.span (x - x₀) (by rw [mulVec_sub, hx'.1, hx, sub_self])
    exact ⟨u, by unfold chart; rw [hu]; abel⟩
  solid := by
    have hc : ∀ u, A *ᵥ chart x₀ B u = b := fun u => by
      unfold chart; rw [mulVec_add, mulVec_mulVec, hB.mul_zero, zero_mulVec, add_zero, hx]
    have ho : IsOpen {u : Fin d → ℝ | chart x₀ B u ∈ TailPos n k} := by
      have : {u : Fin d → ℝ | chart x₀ B u ∈ TailPos n k} = ⋂ i : Fin n, {u | n - k ≤ i.val → 0 < chart x₀ B u i} := by
        ext u; simp [TailPos]
      rw [this]
      refine isOpen_iInter_of_finite fun i => ?_
      by_cases hi : n - k ≤ i.val
      · simp only [hi, true_imp_iff]
        exact isOpen_lt continuous_const ((continuous_apply i).comp (show Continuous fun u => x₀ + B *ᵥ u by fun_prop))
      · simp only [hi, false_imp_iff]
        exact isOpen_univ
    refine ⟨0, mem_interior.2 ⟨_, fun u hu => ⟨hc u, tailPos_subset _ _ hu⟩, ho, ?_⟩⟩
    show chart x₀ B 0 ∈ TailPos n k
    simpa [chart] using hpos

/-! ## Examples -/

theorem face_pos : (![1 / 2, 1 / 2, 0] : Fin 3 → ℝ) ∈ PolyEq faceA.val faceB 3 := by
  rw [faceA_mem]
  exact ⟨by norm_num, rfl, by norm_num, by norm_num⟩

theorem face_box {y : Fin 3 → ℝ} (hy : y ∈ PolyEq faceA.val faceB 3) : ∀ i : Fin 3, |y i| ≤ 1 := by
  obtain ⟨h1, h2, h3, h4⟩ := faceA_mem.1 hy
  intro i
  fin_cases i
  · show |y 0| ≤ 1; rw [abs_le]; constructor <;> linarith
  · show |y 1| ≤ 1; rw [abs_le]; constructor <;> linarith
  · show |y 2| ≤ 1; rw [h2]; norm_num

theorem face_survives (i : Fin 3) : Survives faceA.val faceB 3 i ↔ ∃ j : Fin 2, j.castSucc = i := by
  constructor
  · rintro (h | ⟨x, hx, h⟩)
    · exact absurd h (by simp [faceA])
    · have := (faceA_mem.1 hx).2.1
      fin_cases i
      · exact ⟨0, rfl⟩
      · exact ⟨1, rfl⟩
      · exact absurd this h
  · rintro ⟨j, rfl⟩
    refine .inr ⟨_, face_pos, ?_⟩
    fin_cases j <;> norm_num

/-- The face `x₃ = 0` loses one row and one column. -/
theorem face_right : handedK faceA.val faceB 3 = rightK faceA.val faceB (3 : Int).toNat := by
  refine (C71_right_iff faceA faceB (k := 3) (by decide)).2 ?_
  have h1 : survivorCount faceA.val faceB 3 = 2 := survivorCount_eq (Fin.castSucc_injective 2) face_survives
  have h2 : survivorRank faceA.val faceB 3 = 1 := by
    unfold survivorRank
    have : (Set.range fun i : {i : Fin 3 // Survives faceA.val faceB 3 i} => faceA.val.col i.1) = {(![1, 0] : Fin 2 → ℝ)} := by
      ext v
      constructor
      · rintro ⟨⟨i, hi⟩, rfl⟩
        obtain ⟨j, rfl⟩ := (face_survives i).1 hi
        refine Set.mem_singleton_iff.2 (funext fun l => ?_)
        show faceA.val l j.castSucc = _
        have : ∀ (l j : Fin 2), (!![1, 1, 0; 0, 0, 1] : Matrix (Fin 2) (Fin 3) ℝ) l j.castSucc = (![1, 0] : Fin 2 → ℝ) l := by
          intro l j; fin_cases l <;> fin_cases j <;> simp
        exact this l j
      · intro hv
        refine ⟨⟨(0 : Fin 3), (face_survives 0).2 ⟨0, rfl⟩⟩, ?_⟩
        rw [Set.mem_singleton_iff.1 hv]
        funext l
        have : ∀ l : Fin 2, (!![1, 1, 0; 0, 0, 1] : Matrix (Fin 2) (Fin 3) ℝ) l 0 = (![1, 0] : Fin 2 → ℝ) l := by
          intro l; fin_cases l <;> simp
        exact this l
    refine (congrArg (fun s => Module.finrank ℝ (Submodule.span ℝ s)) this).trans ?_
    exact finrank_span_singleton (fun h => one_ne_zero (α := ℝ) (congrFun h 0))
  show ((2 : ℕ) : Int) - survivorRank faceA.val faceB 3 = ((3 : ℕ) : Int) - survivorCount faceA.val faceB 3
  rw [h1, h2]
  norm_num

/-- The direction of the segment. -/
def faceDir : Matrix (Fin 3) (Fin 1) ℝ := fun i _ => ![1, -1, 0] i

theorem face_chart_apply (u : Fin 1 → ℝ) : chart ![1 / 2, 1 / 2, 0] faceDir u = ![1 / 2 + u 0, 1 / 2 - u 0, 0] := by
  funext i
  fin_cases i <;> simp [chart, faceDir, Matrix.mulVec, dotProduct, sub_eq_add_neg]

theorem face_chart : IsChart (n := 3) (PolyEq faceA.val faceB 3) ![1 / 2, 1 / 2, 0] faceDir where
  inj u hu := by
    have := congrFun hu (0 : Fin 3)
    simp [faceDir, Matrix.mulVec, dotProduct] at this
    funext i
    rw [Subsingleton.elim i 0, this]; rfl
  covers x hx := by
    obtain ⟨h1, h2, -, -⟩ := faceA_mem.1 hx
    refine ⟨fun _ => x 0 - 1 / 2, ?_⟩
    refine (face_chart_apply _).trans (funext fun i => ?_)
    fin_cases i
    · simp
    · simp; linarith
    · simp [h2]
  solid := by
    refine ⟨0, mem_interior.2 ⟨{u | |u 0| < 1 / 2}, fun u hu => ?_, isOpen_lt (by fun_prop) continuous_const, ?_⟩⟩
    · show chart ![1 / 2, 1 / 2, 0] faceDir u ∈ PolyEq faceA.val faceB 3
      have hu' := abs_lt.1 (show |u 0| < 1 / 2 from hu)
      rw [face_chart_apply, faceA_mem]
      refine ⟨?_, rfl, ?_, ?_⟩
      · show 1 / 2 + u 0 + (1 / 2 - u 0) = 1; ring
      · show 0 ≤ 1 / 2 + u 0; linarith
      · show 0 ≤ 1 / 2 - u 0; linarith
    · show |(0 : Fin 1 → ℝ) 0| < 1 / 2
      norm_num

theorem face_not_cone : ¬ CoordCone (PolyEq faceA.val faceB 3) 3 :=
  not_coordCone_of_zero fun h => by
    have h0 : (0 : ℝ) + 0 = 1 := (faceA_mem.1 h).1
    norm_num at h0

/-- `sparseFullWalkRun` with a `SparseDikinWalk` samples the segment `{x ≥ 0 | x₁ + x₂ = 1, x₃ = 0}`, which lies in a face: the third coordinate and the second equation
are removed, the walk runs on the rest, and the rows are mapped back. -/
example : ∃ err, ∃ I : (sparseDriver exactGlpk exactEigen err 4 0 faceA faceB 3).Inner, ∀ ε > 0, ∃ t₀ : ℕ, ∀ (o : BState ℝ) (e : Env ℝ) [MeasurableSpace e.r.G]
    (μ : Measure e.r.G), IdealSource e.r μ → ∀ seed : Int, ∀ t ≥ t₀,
      Driver.LawWithin I (.sparseBarrier (sparseDikinClass 1) 1 exactEigen o) e μ seed (uniformIn (PolyEq faceA.val faceB 3) ![1 / 2, 1 / 2, 0] faceDir) t ε := by
  obtain ⟨err, h1, hS⟩ := exists_frSetting faceA
  exact ⟨err, C84_sparse_dikin hS h1 (b := faceB) (k := 3) (by decide) ⟨_, face_pos⟩ ⟨1, fun y hy => face_box hy⟩ face_not_cone face_right (fuel := 4) (by decide) 0
    face_chart le_rfl exactEigen_exact 1 one_pos 1 one_ne_zero⟩

/-- The simplex `{x ≥ 0 | x₁ + x₂ + x₃ = 1}`. -/
noncomputable def simplexA : DMat ℝ := ⟨1, 3, ones3⟩

/-- Its right-hand side. -/
noncomputable def simplexB : Fin simplexA.r → ℝ := fun _ => 1

/-- Its barycentre. -/
noncomputable def simplexMid : Fin 3 → ℝ := fun _ => 1 / 3

theorem simplexMid_pos : simplexMid ∈ TailPos 3 3 := fun _ _ => by show (0 : ℝ) < 1 / 3; norm_num

theorem simplexMid_mem : simplexMid ∈ PolyEq simplexA.val simplexB 3 := ⟨simplex_start, tailPos_subset _ _ simplexMid_pos⟩

theorem simplexA_chart : IsChart (n := 3) (PolyEq simplexA.val simplexB 3) simplexMid simplexBasis := isChart_of_kernel ones3_kernel simplex_start simplexMid_pos

theorem simplexA_bdd : ∃ C, ∀ y ∈ PolyEq simplexA.val simplexB 3, ∀ i, |y i| ≤ C :=
  ⟨1, fun y hy i => by rw [abs_le]; have := simplex_box y hy i; constructor <;> linarith⟩

theorem simplexA_not_cone : ¬ CoordCone (PolyEq simplexA.val simplexB 3) 3 :=
  not_coordCone_of_zero fun h => by
    have h0 : (ones3 *ᵥ (0 : Fin 3 → ℝ)) 0 = 1 := congrFun h.1 (0 : Fin 1)
    rw [mulVec_zero] at h0
    exact zero_ne_one h0

theorem simplexA_right : handedK simplexA.val simplexB 3 = rightK simplexA.val simplexB (3 : Int).toNat :=
  handedK_regular ones3_indep (k := 3) (by decide) ⟨_, simplexMid_mem, simplexMid_pos⟩

theorem simplexA_disc (u : Fin 2 → ℝ) (h : ∑ i, (chart simplexMid simplexBasis u i - chart simplexMid simplexBasis 0 i) ^ 2 ≤ (1 / 3) ^ 2) :
    chart simplexMid simplexBasis u ∈ PolyEq simplexA.val simplexB 3 := by
  have h0 : chart simplexMid simplexBasis 0 = simplexMid := by simp [chart]
  rw [h0] at h
  refine simplex_disc _ ?_ h
  show ones3 *ᵥ chart simplexMid simplexBasis u = _
  unfold chart
  rw [mulVec_add, mulVec_mulVec, ones3_kernel.mul_zero, zero_mulVec, add_zero]
  exact simplex_start

theorem simplex_step : |(1 / 4 : ℝ)| / Real.sqrt (2 : ℕ) < 1 / 3 := by
  have h1 : (1 : ℝ) ≤ Real.sqrt (2 : ℕ) := by rw [Real.one_le_sqrt]; norm_num
  rw [abs_of_pos (by norm_num), div_lt_iff₀ (by linarith)]
  generalize Real.sqrt (2 : ℕ) = q at h1 ⊢
  linarith

/-- `sparseFullWalkRun` with a `SparseHitAndRun` and with a `SparseBallWalk` on the simplex. -/
example : ∃ err,
    (∃ I : (sparseDriver exactGlpk exactEigen err 4 0 simplexA simplexB 3).Inner, ∀ ε > 0, ∃ η > 0, ∃ t₀ : ℕ, ∀ R ERR : ℝ, |(2 : ℝ)| < 2 ^ 10000 * |R| → 0 < ERR →
      ERR ≤ η → ∀ seed : Int, ∀ t ≥ t₀,
        Driver.LawWithin I (.sparseHitRun R ERR exactEigen) streamEnv streamLaw seed (uniformIn (n := 3) (PolyEq simplexA.val simplexB 3) simplexMid simplexBasis) t ε) ∧
    ∃ I : (sparseDriver exactGlpk exactEigen err 4 0 simplexA simplexB 3).Inner, ∀ ε > 0, ∃ t₀ : ℕ, ∀ seed : Int, ∀ t ≥ t₀,
        Driver.LawWithin I (.sparseBall (1 / 4) exactEigen) streamEnv streamLaw seed (uniformIn (n := 3) (PolyEq simplexA.val simplexB 3) simplexMid simplexBasis) t ε := by
  obtain ⟨err, h1, hS⟩ := exists_frSetting simplexA
  refine ⟨err, ?_, ?_⟩
  · obtain ⟨I, h⟩ := C84_sparse_hitRun hS h1 (b := simplexB) (k := 3) (by decide) ⟨_, simplexMid_mem⟩ simplexA_bdd simplexA_not_cone simplexA_right (fuel := 4)
      (by decide) 0 simplexA_chart le_rfl exactEigen_exact.sparseLU 2 simplex_diam
    refine ⟨I, fun ε hε => ?_⟩
    obtain ⟨η, hη, t₀, h⟩ := h ε hε
    exact ⟨η, hη, t₀, fun R ERR a1 a2 a3 seed t ht => h R ERR a1 a2 a3 streamEnv streamLaw streamRng_ideal seed t ht⟩
  · obtain ⟨I, h⟩ := C84_sparse_ball hS h1 (b := simplexB) (k := 3) (by decide) ⟨_, simplexMid_mem⟩ simplexA_bdd simplexA_not_cone simplexA_right (fuel := 4)
      (by decide) 0 simplexA_chart le_rfl exactEigen_exact.sparseLU (R := 1 / 4) (by norm_num) (u₀ := 0) simplex_step simplexA_disc
    refine ⟨I, fun ε hε => ?_⟩
    obtain ⟨t₀, h⟩ := h ε hε
    exact ⟨t₀, fun seed t ht => h streamEnv streamLaw streamRng_ideal seed t ht⟩

/-- `denseFullWalkRun` with a `HitAndRun` and with a `BallWalk` on the simplex. -/
example : ∃ err,
    (∃ I : (denseDriver exactGlpk exactEigen err 4 0 simplexA simplexB 3).Inner, ∀ ε > 0, ∃ η > 0, ∃ t₀ : ℕ, ∀ R ERR : ℝ, R ≠ 0 → 0 < ERR →
      ERR ≤ η → ∀ seed : Int, ∀ t ≥ t₀,
        Driver.LawWithin I (.hitRun R ERR) streamEnv streamLaw seed (uniformIn (n := 3) (PolyEq simplexA.val simplexB 3) simplexMid simplexBasis) t ε) ∧
    ∃ I : (denseDriver exactGlpk exactEigen err 4 0 simplexA simplexB 3).Inner, ∀ ε > 0, ∃ t₀ : ℕ, ∀ seed : Int, ∀ t ≥ t₀,
        Driver.LawWithin I (.ball (1 / 4)) streamEnv streamLaw seed (uniformIn (n := 3) (PolyEq simplexA.val simplexB 3) simplexMid simplexBasis) t ε := by
  obtain ⟨err, h1, hS⟩ := exists_frSetting simplexA
  refine ⟨err, ?_, ?_⟩
  · obtain ⟨I, h⟩ := C84_dense_hitRun hS h1 exactEigen_householderQR exactEigen_exact.inv (b := simplexB) (k := 3) (by decide) ⟨_, simplexMid_mem, simplexMid_pos⟩
      simplexA_bdd (fuel := 4) (by decide) 0 simplexA_chart le_rfl
    refine ⟨I, fun ε hε => ?_⟩
    obtain ⟨η, hη, t₀, h⟩ := h ε hε
    exact ⟨η, hη, t₀, fun R ERR a1 a2 a3 seed t ht => h R ERR a1 a2 a3 streamEnv streamLaw streamRng_ideal seed t ht⟩
  · obtain ⟨I, h⟩ := C84_dense_ball hS h1 exactEigen_householderQR exactEigen_exact.inv (b := simplexB) (k := 3) (by decide) ⟨_, simplexMid_mem, simplexMid_pos⟩
      simplexA_bdd (fuel := 4) (by decide) 0 simplexA_chart le_rfl (R := 1 / 4) (by norm_num) (u₀ := 0) simplex_step simplexA_disc
    refine ⟨I, fun ε hε => ?_⟩
    obtain ⟨t₀, h⟩ := h ε hε
    exact ⟨t₀, fun seed t ht => h streamEnv streamLaw streamRng_ideal seed t ht⟩

theorem segA_kernel : IsKernelBasis segA.val (fun (i : Fin 2) (_ : Fin 1) => ![1, -1] i) where
  mul_zero := by
    ext i j
    show ∑ l : Fin 2, (1 : ℝ) * ![1, -1] l = 0
    rw [Fin.sum_univ_two]; norm_num
  inj u hu := by
    have h : ∑ l : Fin 1, ![(1 : ℝ), -1] 0 * u l = 0 := congrFun hu (0 : Fin 2)
    funext i
    rw [Subsingleton.elim i 0]
    simpa using h
  span v hv := by
    have h : ∑ l : Fin 2, (1 : ℝ) * v l = 0 := congrFun hv (0 : Fin 1)
    rw [Fin.sum_univ_two] at h
    refine ⟨fun _ => v (0 : Fin 2), funext fun (i : Fin 2) => ?_⟩
    show ∑ l : Fin 1, ![(1 : ℝ), -1] i * v (0 : Fin 2) = v i
    fin_cases i
    · simp
    · simp; linarith

/-- `denseFullWalkRun` with a `DikinWalk` on the segment `{x ≥ 0 | x₁ + x₂ = 1}`. -/
example : ∃ err, ∃ I : (denseDriver exactGlpk exactEigen err 3 0 segA segB 2).Inner, ∀ ε > 0, ∃ t₀ : ℕ, ∀ (o : BState ℝ) (seed : Int), ∀ t ≥ t₀,
    Driver.LawWithin I (.barrier (dikinClass (1 / 2)) exactEigen o) streamEnv streamLaw seed
      (uniformIn (PolyEq segA.val segB 2) (fun _ => 1 / 2) (fun (i : Fin 2) (_ : Fin 1) => ![1, -1] i)) t ε := by
  obtain ⟨err, h1, hS⟩ := exists_frSetting segA
  have hp : (fun _ => 1 / 2 : Fin 2 → ℝ) ∈ TailPos 2 2 := fun _ _ => by norm_num
  obtain ⟨I, h⟩ := C84_dense_dikin hS h1 exactEigen_householderQR exactEigen_exact.inv (b := segB) (k := 2) (by decide) ⟨_, segA_mid, hp⟩
    ⟨1, fun y hy (i : Fin 2) => by
      obtain ⟨a1, a2, a3⟩ := segA_mem.1 hy
      rw [abs_le]
      fin_cases i <;> constructor <;> simp <;> linarith⟩ (fuel := 3) (by decide) 0 (isChart_of_kernel segA_kernel segA_mid.1 hp) rfl exactEigen_exact (1 / 2) (by norm_num)
  refine ⟨err, I, fun ε hε => ?_⟩
  obtain ⟨t₀, h⟩ := h ε hε
  exact ⟨t₀, fun o seed t ht => h o streamEnv streamLaw streamRng_ideal seed t ht⟩

end PW
