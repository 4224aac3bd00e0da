import Verif.Props.Concentrate
import Verif.Props.EndToEnd

/-!
# C105: how many rows of a full-run driver are enough
-/

namespace PW
open MeasureTheory Matrix Set
open scoped ENNReal

section Sparse
variable {glp : Glpk ℝ} {E : Eigen ℝ} {err : ℝ} {A : DMat ℝ} (hS : FRSetting glp E err A) (h1 : err ≤ 1) {b : Fin A.r → ℝ} {k : Int}
  (hk : 0 < k ∧ k ≤ A.c) (hne : (PolyEq A.val b k.toNat).Nonempty) (hbd : ∃ C, ∀ y ∈ PolyEq A.val b k.toNat, ∀ i, |y i| ≤ C)
  (hcone : ¬ CoordCone (PolyEq A.val b k.toNat) k.toNat) (hright : handedK A.val b k = rightK A.val b k.toNat) {fuel : ℕ} (hf : k.toNat < fuel)
  (gi : Int) {d : ℕ} {x₀ : Fin A.c → ℝ} {B : Matrix (Fin A.c) (Fin d) ℝ} (hB : IsChart (PolyEq A.val b k.toNat) x₀ B)
include hS h1 hk hne hbd hcone hright hf hB

/-- **C105** (`sparseFullWalkRun` with `SparseBallWalk`): under the conditions of C84 there is a constant `C` such that for every function `φ` bounded by `M` on the
polytope of the caller the mean of `φ` over `L` rows of the driver is off by `ε` or more with probability at most `2 exp(r - L r² / 2)`, `r = ε / (C M)`. -/
theorem C105_sparse_ball (hd : 2 ≤ d) (hE : E.SparseLUExact) {R : ℝ} (hR : R ≠ 0) {u₀ : Fin d → ℝ} {ρ : ℝ} (hρ : |R| / Real.sqrt d < ρ)
    (hball : ∀ u, ∑ i, (chart x₀ B u i - chart x₀ B u₀ i) ^ 2 ≤ ρ ^ 2 → chart x₀ B u ∈ PolyEq A.val b k.toNat) :
    ∃ I : (sparseDriver glp E err fuel gi A b k).Inner, ∃ C : ℝ, 0 < C ∧ ∀ (φ : (Fin A.c → ℝ) → ℝ), Measurable φ → ∀ M > 0,
      (∀ y ∈ PolyEq A.val b k.toNat, |φ y| ≤ M) → ∀ ε > 0, ∀ (e : Env ℝ) [MeasurableSpace e.r.G] (μ : Measure e.r.G), IdealSource e.r μ → ∀ (seed : Int) (L : ℕ),
        Driver.MeanWithin I (.sparseBall R E) e μ seed φ (average (uniformIn (PolyEq A.val b k.toNat) x₀ B) φ) L ε
          (2 * Real.exp (ε / (C * M) - L * (ε / (C * M)) ^ 2 / 2)) := by
  obtain ⟨I, h⟩ := sparse_inner hS h1 hk hne hbd hcone hright hf gi (by omega) hB
  obtain ⟨B', hB', κ, hκ0, hκ1, hκ⟩ := h.law
  obtain ⟨y₀, hy₀, hb'⟩ := h.ball hB hball
  have hdim : (I.c : ℝ) - I.r = d := by rw [← h.dim]; push_cast; ring
  obtain ⟨κ', hκ'0, hκ'1, hκ'⟩ := uniformOnEq_chart hB' hB' (x₀ := y₀) (x₁ := I.x) (h.xA.trans hy₀.symm) I.k.toNat
  obtain ⟨C, hC, hL⟩ := C104_sparse_ball hE h.indep (by have := h.dim; omega) h.k h.bdd hR hy₀ (by rw [hdim]; exact hρ) hb' hB'
  refine ⟨I, C, hC, fun φ hφ M hM hφM ε hε e _ μ hs seed L =>
    Driver.meanWithin I h.inj h.meas (κ := κ * κ') (mul_ne_zero hκ0 hκ'0) (ENNReal.mul_ne_top hκ1 hκ'1) ?_ hφ
      (hL e μ hs I.x ⟨h.xA, tailPos_subset _ _ h.xpos⟩ seed (φ ∘ I.L) M ε (hφ.comp h.meas) hM (fun y hy => hφM _ ((h.maps y hy.1).2 hy)) hε L)⟩
  rw [hκ, hκ', Measure.map_smul, smul_smul]

/-- **C105** (`sparseFullWalkRun` with `SparseHitAndRun`): up to a bias proportional to the tolerance of the chord search. -/
theorem C105_sparse_hitRun (hd : 2 ≤ d) (hE : E.SparseLUExact) (D : ℝ)
    (hD : ∀ y ∈ PolyEq A.val b k.toNat, ∀ z ∈ PolyEq A.val b k.toNat, ∑ i, (y i - z i) ^ 2 ≤ D ^ 2) :
    ∃ I : (sparseDriver glp E err fuel gi A b k).Inner, ∃ C C' η : ℝ, 0 < C ∧ 0 ≤ C' ∧ 0 < η ∧ ∀ R ERR : ℝ, |D| < 2 ^ 10000 * |R| → 0 < ERR → ERR ≤ η →
      ∀ (φ : (Fin A.c → ℝ) → ℝ), Measurable φ → ∀ M > 0, (∀ y ∈ PolyEq A.val b k.toNat, |φ y| ≤ M) → ∀ ε > 0,
      ∀ (e : Env ℝ) [MeasurableSpace e.r.G] (μ : Measure e.r.G), IdealSource e.r μ → ∀ (seed : Int) (L : ℕ),
        Driver.MeanWithin I (.sparseHitRun R ERR E) e μ seed φ (average (uniformIn (PolyEq A.val b k.toNat) x₀ B) φ) L (ε + 2 * M * (C' * ERR))
          (2 * Real.exp (ε / (C * M) - L * (ε / (C * M)) ^ 2 / 2)) := by
  obtain ⟨I, h⟩ := sparse_inner hS h1 hk hne hbd hcone hright hf gi (by omega) hB
  obtain ⟨B', hB', κ, hκ0, hκ1, hκ⟩ := h.law
  obtain ⟨C, C', η, hC, hC', hη, hL⟩ := C104_sparse_hitrun hE h.indep (by have := h.dim; omega) I.k h.k I.v I.x h.xA h.xpos D
    (fun y hy z hz => by
      rw [← h.iso]
      exact hD _ ((h.maps y hy.1).2 hy) _ ((h.maps z hz.1).2 hz)) B' hB'
  exact ⟨I, C, C', η, hC, hC', hη, fun R ERR hR hE0 hEη φ hφ M hM hφM ε hε e _ μ hs seed L =>
    Driver.meanWithin I h.inj h.meas hκ0 hκ1 hκ hφ (hL R ERR hR hE0 hEη e μ hs I.x h.xA h.xpos seed (φ ∘ I.L) M ε (hφ.comp h.meas) hM
      (fun y hy => hφM _ ((h.maps y hy.1).2 hy)) hε L)⟩

end Sparse

section Dense
variable {glp : Glpk ℝ} {E : Eigen ℝ} {err : ℝ} {A : DMat ℝ} (hS : FRSetting glp E err A) (h1 : err ≤ 1) (hQ : E.HouseholderExact) (hI : E.InvExact)
  {b : Fin A.r → ℝ} {k : Int} (hk : 0 < k ∧ k ≤ A.c) (hpos : ∃ x ∈ PolyEq A.val b k.toNat, x ∈ TailPos A.c k.toNat)
  (hbd : ∃ C, ∀ y ∈ PolyEq A.val b k.toNat, ∀ i, |y i| ≤ C) {fuel : ℕ} (hf : k.toNat < fuel)
  (gi : Int) {d : ℕ} {x₀ : Fin A.c → ℝ} {B : Matrix (Fin A.c) (Fin d) ℝ} (hB : IsChart (PolyEq A.val b k.toNat) x₀ B)
include hS h1 hQ hI hk hpos hbd hf hB

/-- **C105** (`denseFullWalkRun` with `BallWalk`). -/
theorem C105_dense_ball (hd : 2 ≤ d) {R : ℝ} (hR : R ≠ 0) {u₀ : Fin d → ℝ} {ρ : ℝ} (hρ : |R| / Real.sqrt d < ρ)
    (hball : ∀ u, ∑ i, (chart x₀ B u i - chart x₀ B u₀ i) ^ 2 ≤ ρ ^ 2 → chart x₀ B u ∈ PolyEq A.val b k.toNat) :
    ∃ I : (denseDriver glp E err fuel gi A b k).Inner, ∃ C : ℝ, 0 < C ∧ ∀ (φ : (Fin A.c → ℝ) → ℝ), Measurable φ → ∀ M > 0,
      (∀ y ∈ PolyEq A.val b k.toNat, |φ y| ≤ M) → ∀ ε > 0, ∀ (e : Env ℝ) [MeasurableSpace e.r.G] (μ : Measure e.r.G), IdealSource e.r μ → ∀ (seed : Int) (L : ℕ),
        Driver.MeanWithin I (.ball R) e μ seed φ (average (uniformIn (PolyEq A.val b k.toNat) x₀ B) φ) L ε
          (2 * Real.exp (ε / (C * M) - L * (ε / (C * M)) ^ 2 / 2)) := by
  obtain ⟨I, h⟩ := dense_inner hS h1 hQ hI hk hpos hbd hf gi hB
  obtain ⟨κ, hκ0, hκ1, hκ⟩ := h.law
  obtain ⟨y₀, hb'⟩ := h.ball hB hball
  obtain ⟨C, hC, hL⟩ := C104_ball (by have := h.dim; omega) h.bdd hR (by rw [h.dim]; exact hρ) hb'
  exact ⟨I, C, hC, fun φ hφ M hM hφM ε hε e _ μ hs seed L => Driver.meanWithin I h.inj h.meas hκ0 hκ1 hκ hφ
    (hL e μ hs I.x (interior_subset _ _ h.x) I.k seed (φ ∘ I.L) M ε (hφ.comp h.meas) hM (fun y hy => hφM _ ((h.maps y).2 hy)) hε L)⟩

/-- **C105** (`denseFullWalkRun` with `HitAndRun`). -/
theorem C105_dense_hitRun (hd : 2 ≤ d) :
    ∃ I : (denseDriver glp E err fuel gi A b k).Inner, ∃ C C' η : ℝ, 0 < C ∧ 0 ≤ C' ∧ 0 < η ∧ ∀ R ERR : ℝ, R ≠ 0 → 0 < ERR → ERR ≤ η →
      ∀ (φ : (Fin A.c → ℝ) → ℝ), Measurable φ → ∀ M > 0, (∀ y ∈ PolyEq A.val b k.toNat, |φ y| ≤ M) → ∀ ε > 0,
      ∀ (e : Env ℝ) [MeasurableSpace e.r.G] (μ : Measure e.r.G), IdealSource e.r μ → ∀ (seed : Int) (L : ℕ),
        Driver.MeanWithin I (.hitRun R ERR) e μ seed φ (average (uniformIn (PolyEq A.val b k.toNat) x₀ B) φ) L (ε + 2 * M * (C' * ERR))
          (2 * Real.exp (ε / (C * M) - L * (ε / (C * M)) ^ 2 / 2)) := by
  obtain ⟨I, h⟩ := dense_inner hS h1 hQ hI hk hpos hbd hf gi hB
  obtain ⟨κ, hκ0, hκ1, hκ⟩ := h.law
  obtain ⟨C, C', η, hC, hC', hη, hL⟩ := C104_hitrun (by have := h.dim; omega) I.M I.v ⟨_, h.x⟩ h.bdd
  exact ⟨I, C, C', η, hC, hC', hη, fun R ERR hR hE0 hEη φ hφ M hM hφM ε hε e _ μ hs seed L =>
    Driver.meanWithin I h.inj h.meas hκ0 hκ1 hκ hφ (hL R ERR hR hE0 hEη e μ hs I.x h.x I.k seed (φ ∘ I.L) M ε (hφ.comp h.meas) hM
      (fun y hy => hφM _ ((h.maps y).2 hy)) hε L)⟩

end Dense

end PW
