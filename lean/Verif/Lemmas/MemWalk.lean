import Verif.Lemmas.PerturbMean
import Verif.Lemmas.KernelNear
import Verif.Props.SparseBarrierConverges

/-!
# Sparse barrier walks whose weights depend on the weights of the previous evaluation

The state is the position with the weights left by the last evaluation. `W x ω` are the weights computed at `x` when the last ones were `ω`
and `Gm x ω'` is the metric with weights `ω'`.
-/

namespace PW
open Matrix MeasureTheory Set Filter Topology
open scoped ENNReal
variable {m n d : ℕ}

section
variable (A : Matrix (Fin m) (Fin n) ℝ) (D : ℝ) (Gm W : (Fin n → ℝ) → (Fin n → ℝ) → Fin n → ℝ) (k : ℕ)

/-- Proposal. -/
noncomputable def memProp (z : (Fin n → ℝ) × (Fin n → ℝ)) (ξ : Fin n → ℝ) : Fin n → ℝ :=
  sparseProp A D (fun _ => Gm z.1 (W z.1 z.2)) z.1 ξ

/-- Acceptance probability of a proposal `y`. -/
noncomputable def memAcc (z : (Fin n → ℝ) × (Fin n → ℝ)) (y : Fin n → ℝ) : ℝ :=
  min 1 (Real.exp (kerLogDens A D (Gm y (W y (W z.1 (W z.1 z.2)))) y z.1 - kerLogDens A D (Gm z.1 (W z.1 (W z.1 z.2))) z.1 y))

open Classical in
/-- The state after a proposal inside the polytope and a draw `v`. -/
noncomputable def memIn (z : (Fin n → ℝ) × (Fin n → ℝ)) (ξ : Fin n → ℝ) (v : ℝ) : (Fin n → ℝ) × (Fin n → ℝ) :=
  (if v < memAcc A D Gm W z (memProp A D Gm W z ξ) then memProp A D Gm W z ξ else z.1, W (memProp A D Gm W z ξ) (W z.1 (W z.1 z.2)))

/-- The state after a proposal outside. -/
def memOut (z : (Fin n → ℝ) × (Fin n → ℝ)) (_ : Fin n → ℝ) : (Fin n → ℝ) × (Fin n → ℝ) := (z.1, W z.1 z.2)

/-- The proposal is inside. -/
def memK : Set (((Fin n → ℝ) × (Fin n → ℝ)) × (Fin n → ℝ)) := {p | memProp A D Gm W p.1 p.2 ∈ TailNonneg n k}

/-- One move. -/
noncomputable def memMove : (Fin n → ℝ) × (Fin n → ℝ) → (Fin n → ℝ) × ℝ → (Fin n → ℝ) × (Fin n → ℝ) :=
  drawMove (memK A D Gm W k) (memIn A D Gm W) (memOut W)

/-- One iteration. -/
noncomputable def memNext (r : Rng ℝ) : (Fin n → ℝ) × (Fin n → ℝ) → r.G → ((Fin n → ℝ) × (Fin n → ℝ)) × r.G :=
  drawNext r n (memK A D Gm W k) (memIn A D Gm W) (memOut W)

/-- The position moves as in a Metropolis-Hastings step. -/
theorem memMove_fst (z : (Fin n → ℝ) × (Fin n → ℝ)) (w : (Fin n → ℝ) × ℝ) :
    (memMove A D Gm W k z w).1 = mhMove (TailNonneg n k) (fun _ => memProp A D Gm W z) (fun _ => memAcc A D Gm W z) z.1 w := by
  classical
  unfold memMove drawMove mhMove
  by_cases h1 : memProp A D Gm W z w.1 ∈ TailNonneg n k
  · rw [if_pos (show (z, w.1) ∈ memK A D Gm W k from h1)]
    by_cases h2 : w.2 < memAcc A D Gm W z (memProp A D Gm W z w.1)
    · rw [if_pos ⟨h1, h2⟩]
      show (if _ then _ else _) = _
      rw [if_pos h2]
    · rw [if_neg fun h => h2 h.2]
      show (if _ then _ else _) = _
      rw [if_neg h2]
  · rw [if_neg (show (z, w.1) ∉ memK A D Gm W k from h1), if_neg fun h => h1 h.1]
    rfl

end

/-- The hypotheses on the weights: measurable, they stay in `Box`, and the metric they give is within a factor `1 ± τ` of `Gf`. -/
structure MemNear (k : ℕ) (Gf : (Fin n → ℝ) → Fin n → ℝ) (Gm W : (Fin n → ℝ) → (Fin n → ℝ) → Fin n → ℝ) (Box : Set (Fin n → ℝ)) (τ : ℝ) : Prop where
  measG : ∀ i, Measurable fun p : (Fin n → ℝ) × (Fin n → ℝ) => Gm p.1 p.2 i
  measW : Measurable fun p : (Fin n → ℝ) × (Fin n → ℝ) => W p.1 p.2
  measBox : MeasurableSet Box
  box : ∀ x ∈ TailPos n k, ∀ ω ∈ Box, W x ω ∈ Box
  near : ∀ x ∈ TailPos n k, ∀ ω ∈ Box, ∀ i, |Gm x (W x ω) i - Gf x i| ≤ τ * Gf x i

section
variable {A : Matrix (Fin m) (Fin n) ℝ} (hA : IndepRows A) {k : ℕ} {D : ℝ} (hD : 0 < D) {x₀ : Fin n → ℝ} (hx₀ : x₀ ∈ TailPos n k)
  {B : Matrix (Fin n) (Fin d) ℝ} (hB : IsKernelBasis A B) {Gf : (Fin n → ℝ) → Fin n → ℝ} (hGm : ∀ i, Measurable fun x => Gf x i)
  (hGpos : ∀ x ∈ TailPos n k, ∀ i, 0 < Gf x i) {Gm W : (Fin n → ℝ) → (Fin n → ℝ) → Fin n → ℝ} {Box : Set (Fin n → ℝ)} {τ : ℝ}
  (h : MemNear k Gf Gm W Box τ)

/-- States where the walk is well defined. -/
def memGood (A : Matrix (Fin m) (Fin n) ℝ) (k : ℕ) (x₀ : Fin n → ℝ) (Box : Set (Fin n → ℝ)) : Set ((Fin n → ℝ) × (Fin n → ℝ)) :=
  {z | z.1 ∈ relInterior A k x₀ ∧ z.2 ∈ Box}

include h in
theorem MemNear.measW1 : Measurable fun z : (Fin n → ℝ) × (Fin n → ℝ) => W z.1 (W z.1 z.2) :=
  h.measW.comp (measurable_fst.prodMk h.measW)

include h in
theorem measurable_memProp (A : Matrix (Fin m) (Fin n) ℝ) (D : ℝ) :
    Measurable fun p : ((Fin n → ℝ) × (Fin n → ℝ)) × (Fin n → ℝ) => memProp A D Gm W p.1 p.2 := by
  have hg : ∀ i, Measurable fun p : ((Fin n → ℝ) × (Fin n → ℝ)) × (Fin n → ℝ) => Gm p.1.1 (W p.1.1 p.1.2) i := fun i =>
    (h.measG i).comp ((measurable_fst.comp measurable_fst).prodMk (h.measW.comp measurable_fst))
  have h1 : Measurable fun p : ((Fin n → ℝ) × (Fin n → ℝ)) × (Fin n → ℝ) => dirMat A (Gm p.1.1 (W p.1.1 p.1.2)) *ᵥ p.2 :=
    (measMat_dirMat A hg).mulVec measurable_snd
  exact (measurable_fst.comp measurable_fst).add (h1.const_smul (Real.sqrt D))

include h in
theorem measurable_memAcc (A : Matrix (Fin m) (Fin n) ℝ) (D : ℝ) :
    Measurable fun p : ((Fin n → ℝ) × (Fin n → ℝ)) × (Fin n → ℝ) => memAcc A D Gm W p.1 p.2 := by
  have m2 : Measurable fun p : ((Fin n → ℝ) × (Fin n → ℝ)) × (Fin n → ℝ) => W p.1.1 (W p.1.1 p.1.2) := h.measW1.comp measurable_fst
  have m3 : Measurable fun p : ((Fin n → ℝ) × (Fin n → ℝ)) × (Fin n → ℝ) => W p.2 (W p.1.1 (W p.1.1 p.1.2)) :=
    h.measW.comp (measurable_snd.prodMk m2)
  have h1 := measurable_kerLogDens (X := ((Fin n → ℝ) × (Fin n → ℝ)) × (Fin n → ℝ)) A D
    (G := fun p => Gm p.2 (W p.2 (W p.1.1 (W p.1.1 p.1.2)))) (fun i => (h.measG i).comp (measurable_snd.prodMk m3)) measurable_snd
    (measurable_fst.comp measurable_fst)
  have h2 := measurable_kerLogDens (X := ((Fin n → ℝ) × (Fin n → ℝ)) × (Fin n → ℝ)) A D
    (G := fun p => Gm p.1.1 (W p.1.1 (W p.1.1 p.1.2))) (fun i => (h.measG i).comp ((measurable_fst.comp measurable_fst).prodMk m2))
    (measurable_fst.comp measurable_fst) measurable_snd
  exact measurable_const.min (Real.measurable_exp.comp (h1.sub h2))

include h in
theorem measurableSet_memK (A : Matrix (Fin m) (Fin n) ℝ) (D : ℝ) (k : ℕ) : MeasurableSet (memK A D Gm W k) :=
  (measurable_memProp h A D) (measurableSet_tailNonneg n k)

include h in
theorem measurable_memIn (A : Matrix (Fin m) (Fin n) ℝ) (D : ℝ) :
    Measurable fun p : ((Fin n → ℝ) × (Fin n → ℝ)) × (Fin n → ℝ) × ℝ => memIn A D Gm W p.1 p.2.1 p.2.2 := by
  classical
  have mp : Measurable fun p : ((Fin n → ℝ) × (Fin n → ℝ)) × (Fin n → ℝ) × ℝ => memProp A D Gm W p.1 p.2.1 :=
    (measurable_memProp h A D).comp (measurable_fst.prodMk (measurable_fst.comp measurable_snd))
  have mq : Measurable fun p : ((Fin n → ℝ) × (Fin n → ℝ)) × (Fin n → ℝ) × ℝ => (p.1, memProp A D Gm W p.1 p.2.1) := measurable_fst.prodMk mp
  have mr := measurable_memAcc h A D
  have ma : Measurable fun p : ((Fin n → ℝ) × (Fin n → ℝ)) × (Fin n → ℝ) × ℝ => memAcc A D Gm W p.1 (memProp A D Gm W p.1 p.2.1) := by
    have := mr.comp mq
    simpa only [Function.comp_def] using this
  have m1 : Measurable fun p : ((Fin n → ℝ) × (Fin n → ℝ)) × (Fin n → ℝ) × ℝ => p.1.1 := measurable_fst.comp measurable_fst
  have m2 : Measurable fun p : ((Fin n → ℝ) × (Fin n → ℝ)) × (Fin n → ℝ) × ℝ => p.2.2 := measurable_snd.comp measurable_snd
  have m3 : Measurable fun p : ((Fin n → ℝ) × (Fin n → ℝ)) × (Fin n → ℝ) × ℝ => W p.1.1 (W p.1.1 p.1.2) := h.measW1.comp measurable_fst
  have m4 : Measurable fun p : ((Fin n → ℝ) × (Fin n → ℝ)) × (Fin n → ℝ) × ℝ => W (memProp A D Gm W p.1 p.2.1) (W p.1.1 (W p.1.1 p.1.2)) :=
    h.measW.comp (mp.prodMk m3)
  unfold memIn
  refine Measurable.prodMk ?_ m4
  exact Measurable.ite (measurableSet_lt m2 ma) mp m1

include h in
theorem measurable_memOut : Measurable fun p : ((Fin n → ℝ) × (Fin n → ℝ)) × (Fin n → ℝ) => memOut W p.1 p.2 :=
  (measurable_fst.comp measurable_fst).prodMk (h.measW.comp measurable_fst)

include h in
theorem measurable_memMove (A : Matrix (Fin m) (Fin n) ℝ) (D : ℝ) (k : ℕ) :
    Measurable fun p : ((Fin n → ℝ) × (Fin n → ℝ)) × ((Fin n → ℝ) × ℝ) => memMove A D Gm W k p.1 p.2 :=
  measurable_drawMove (measurableSet_memK h A D k) (measurable_memIn h A D) (measurable_memOut h)

include h in
theorem measurable_memNext (A : Matrix (Fin m) (Fin n) ℝ) (D : ℝ) (k : ℕ) (r : Rng ℝ) [MeasurableSpace r.G] (μ : Measure r.G) (hs : IdealSource r μ) :
    Measurable fun p : ((Fin n → ℝ) × (Fin n → ℝ)) × r.G => memNext A D Gm W k r p.1 p.2 :=
  measurable_drawNext (measurableSet_memK h A D k) (measurable_memIn h A D) (measurable_memOut h) r (hs.gaussian n).measurable hs.uniform.measurable

include h in
theorem memNext_drives (A : Matrix (Fin m) (Fin n) ℝ) (D : ℝ) (k : ℕ) (r : Rng ℝ) [MeasurableSpace r.G] (μ : Measure r.G) (hs : IdealSource r μ) :
    Drives μ ((stdNormal n).prod unitLaw) (memNext A D Gm W k r) (memMove A D Gm W k) :=
  drawNext_drives (measurableSet_memK h A D k) (measurable_memIn h A D) (measurable_memOut h) r μ stdNormal hs

include hGpos in
theorem near_pos {x : Fin n → ℝ} (hx : x ∈ TailPos n k) (hτ : τ ≤ 1 / 2) {G : Fin n → ℝ} (hG : ∀ i, |G i - Gf x i| ≤ τ * Gf x i) (i : Fin n) : 0 < G i := by
  have h1 := abs_le.1 (hG i)
  have h2 := hGpos x hx i
  nlinarith

include hA hD hx₀ hB hGpos h in
/-- Almost every proposal is in the relative interior or outside. -/
theorem memProp_ae (hτ : τ ≤ 1 / 2) {z : (Fin n → ℝ) × (Fin n → ℝ)} (hz : z ∈ memGood A k x₀ Box) :
    ∀ᵐ ξ ∂(stdNormal n), memProp A D Gm W z ξ ∈ relInterior A k x₀ ∨ memProp A D Gm W z ξ ∉ TailNonneg n k := by
  obtain ⟨x, ω⟩ := z
  obtain ⟨hx, hω⟩ := hz
  have hx : x ∈ relInterior A k x₀ := hx
  have hω : ω ∈ Box := hω
  obtain ⟨c, hc, hdens⟩ := gaussDensity_kernel hA hB hD
  obtain ⟨u, hu⟩ := hB.span (x - x₀) (by rw [Matrix.mulVec_sub, hx.2, sub_self])
  have hu : chart x₀ B u = x := by show x₀ + B *ᵥ u = x; rw [hu]; abel
  subst hu
  set G1 := Gm (chart x₀ B u) (W (chart x₀ B u) ω) with hG1
  have hp : ∀ i, 0 < G1 i := near_pos hGpos hx.1 hτ (h.near _ hx.1 _ hω)
  have hp' : ∀ y ∈ TailPos n k, ∀ i, 0 < (fun _ : Fin n → ℝ => G1) y i := fun _ _ i => hp i
  have hN0 : volume (chart x₀ B ⁻¹' TailNonneg n k \ chart x₀ B ⁻¹' relInterior A k x₀) = 0 := by
    rw [chart_relInterior hB]; exact ae_le_set.1 (tail_boundary_null hx₀ B).symm.le
  have hDm : MeasurableSet (chart x₀ B ⁻¹' TailNonneg n k \ chart x₀ B ⁻¹' relInterior A k x₀) :=
    (measurable_chart x₀ B (measurableSet_tailNonneg n k)).diff (measurable_chart x₀ B (measurableSet_relInterior A k x₀))
  have h2 : (stdNormal n) (sparseCoordProp A D (fun _ => G1) x₀ B u ⁻¹' (chart x₀ B ⁻¹' TailNonneg n k \ chart x₀ B ⁻¹' relInterior A k x₀)) = 0 := by
    rw [← Measure.map_apply (measurable_sparseCoordProp u) hDm, sparseCoordProp_law hA hD hB hp' hdens hx]
    exact withDensity_absolutelyContinuous _ _ hN0
  rw [ae_iff]
  refine measure_mono_null ?_ h2
  intro ξ hξ
  have hξ' : ¬ (memProp A D Gm W (chart x₀ B u, ω) ξ ∈ relInterior A k x₀ ∨ memProp A D Gm W (chart x₀ B u, ω) ξ ∉ TailNonneg n k) := hξ
  have e : memProp A D Gm W (chart x₀ B u, ω) ξ = chart x₀ B (sparseCoordProp A D (fun _ => G1) x₀ B u ξ) :=
    (sparseCoordProp_lift (k := k) (x₀ := x₀) hA hB hp' hx ξ).symm
  rw [e] at hξ'
  show chart x₀ B _ ∈ TailNonneg n k ∧ chart x₀ B _ ∉ relInterior A k x₀
  tauto

include hA hD hx₀ hB hGpos h in
/-- The walk stays where it is well defined. -/
theorem memMove_ae (hτ : τ ≤ 1 / 2) (z : (Fin n → ℝ) × (Fin n → ℝ)) (hz : z ∈ memGood A k x₀ Box) :
    ∀ᵐ w ∂((stdNormal n).prod unitLaw), memMove A D Gm W k z w ∈ memGood A k x₀ Box := by
  have hq : Measure.QuasiMeasurePreserving (Prod.fst : (Fin n → ℝ) × ℝ → _) ((stdNormal n).prod unitLaw) (stdNormal n) :=
    Measure.quasiMeasurePreserving_fst
  filter_upwards [hq.ae (memProp_ae hA hD hx₀ hB hGpos h hτ hz)] with w hw
  have b1 := h.box _ hz.1.1 _ hz.2
  have b2 := h.box _ hz.1.1 _ b1
  unfold memMove drawMove
  split_ifs with hc
  · have hv : memProp A D Gm W z w.1 ∈ relInterior A k x₀ := hw.resolve_right fun h => h hc
    refine ⟨?_, h.box _ hv.1 _ b2⟩
    show (if _ then _ else _) ∈ _
    split_ifs
    · exact hv
    · exact hz.1
  · exact ⟨hz.1, b1⟩

/-- A move in coordinates. -/
theorem mhMove_lift {X Y Ξ : Type} {c : Y → X} {C : Set X} {P : Ξ → X} {a : X → ℝ} {prop : Ξ → Y} {u : Y} {w : Ξ × ℝ} (e : P w.1 = c (prop w.1)) :
    mhMove C (fun _ => P) (fun _ => a) (c u) w = c (mhMove (c ⁻¹' C) (fun _ => prop) (fun _ v => a (c v)) u w) := by
  classical
  unfold mhMove
  simp only [e, mem_preimage]
  split_ifs <;> rfl

include hA hD hx₀ hB hGm hGpos h in
/-- One step deviates little from the exact walk. -/
theorem memMove_near (hτ0 : 0 ≤ τ) (hτ : τ ≤ 1 / 2) {c : ℝ} (hc : 0 < c)
    (hdens : ∀ G : Fin n → ℝ, (∀ i, 0 < G i) → ∀ (x : Fin n → ℝ) (u v : Fin d → ℝ),
      gaussDensity ((1 / D) • (Bᵀ * diagonal G * B)) u v = c * Real.exp (kerLogDens A D G (chart x B u) (chart x B v)))
    (z : (Fin n → ℝ) × (Fin n → ℝ)) (hz : z ∈ memGood A k x₀ Box) (f : (Fin n → ℝ) → ℝ) (hf : Bdd 1 f) :
    |∫ w, f (memMove A D Gm W k z w).1 ∂((stdNormal n).prod unitLaw) -
      ∫ w, f (mhMove (TailNonneg n k) (sparseProp A D Gf) (sparseAccept A D Gf) z.1 w) ∂((stdNormal n).prod unitLaw)| ≤
      flowDev A D Gf k x₀ B c τ z.1 := by
  classical
  have hN : IsProbabilityMeasure (stdNormal n) := inferInstance
  obtain ⟨x, ω⟩ := z
  obtain ⟨hx, hω⟩ := hz
  have hx : x ∈ relInterior A k x₀ := hx
  have hω : ω ∈ Box := hω
  obtain ⟨u, hu⟩ := hB.span (x - x₀) (by rw [Matrix.mulVec_sub, hx.2, sub_self])
  have hu : chart x₀ B u = x := by show x₀ + B *ᵥ u = x; rw [hu]; abel
  subst hu
  set G1 := Gm (chart x₀ B u) (W (chart x₀ B u) ω) with hG1
  have b1 := h.box _ hx.1 _ hω
  have b2 := h.box _ hx.1 _ b1
  have hp : ∀ i, 0 < G1 i := near_pos hGpos hx.1 hτ (h.near _ hx.1 _ hω)
  have hp' : ∀ y ∈ TailPos n k, ∀ i, 0 < (fun _ : Fin n → ℝ => G1) y i := fun _ _ i => hp i
  have bound2 : |∫ w, f (memMove A D Gm W k (chart x₀ B u, ω) w).1 ∂((stdNormal n).prod unitLaw) -
      ∫ w, f (mhMove (TailNonneg n k) (sparseProp A D Gf) (sparseAccept A D Gf) (chart x₀ B u) w) ∂((stdNormal n).prod unitLaw)| ≤ 2 := by
    have e1 := norm_integral_le_of_norm_le_const (μ := (stdNormal n).prod unitLaw) (f := fun w => f (memMove A D Gm W k (chart x₀ B u, ω) w).1) (C := 1)
      (ae_of_all _ fun w => hf.le _)
    have e2 := norm_integral_le_of_norm_le_const (μ := (stdNormal n).prod unitLaw)
      (f := fun w => f (mhMove (TailNonneg n k) (sparseProp A D Gf) (sparseAccept A D Gf) (chart x₀ B u) w)) (C := 1) (ae_of_all _ fun w => hf.le _)
    rw [probReal_univ, mul_one, Real.norm_eq_abs] at e1 e2
    exact (abs_sub _ _).trans (by linarith)
  -- coordinates
  have L1 : ∀ w, (memMove A D Gm W k (chart x₀ B u, ω) w).1 = chart x₀ B (mhMove (chart x₀ B ⁻¹' TailNonneg n k)
      (fun _ => sparseCoordProp A D (fun _ => G1) x₀ B u) (fun _ v => memAcc A D Gm W (chart x₀ B u, ω) (chart x₀ B v)) u w) := by
    intro w
    rw [memMove_fst]
    have e : memProp A D Gm W (chart x₀ B u, ω) w.1 = chart x₀ B (sparseCoordProp A D (fun _ => G1) x₀ B u w.1) :=
      (sparseCoordProp_lift (k := k) (x₀ := x₀) hA hB hp' hx w.1).symm
    exact mhMove_lift e
  have L2 : ∀ w, mhMove (TailNonneg n k) (sparseProp A D Gf) (sparseAccept A D Gf) (chart x₀ B u) w = chart x₀ B
      (mhMove (chart x₀ B ⁻¹' TailNonneg n k) (fun _ => sparseCoordProp A D Gf x₀ B u)
        (fun _ v => sparseAccept A D Gf (chart x₀ B u) (chart x₀ B v)) u w) := by
    intro w
    have e : sparseProp A D Gf (chart x₀ B u) w.1 = chart x₀ B (sparseCoordProp A D Gf x₀ B u w.1) :=
      (sparseCoordProp_lift (k := k) (x₀ := x₀) hA hB hGpos hx w.1).symm
    exact mhMove_lift (P := sparseProp A D Gf (chart x₀ B u)) (a := sparseAccept A D Gf (chart x₀ B u)) e
  have kd : ∀ {G : Fin n → ℝ}, Measurable fun v => kerLogDens A D G (chart x₀ B u) (chart x₀ B v) := fun {G} =>
    measurable_kerLogDens A D (G := fun _ => G) (fun i => measurable_const) measurable_const (measurable_chart x₀ B)
  have mc : Measurable fun v : Fin d → ℝ => (((chart x₀ B u, ω) : (Fin n → ℝ) × (Fin n → ℝ)), chart x₀ B v) :=
    measurable_const.prodMk (measurable_chart x₀ B)
  have mr := measurable_memAcc h A D
  have macc : Measurable fun v => memAcc A D Gm W (chart x₀ B u, ω) (chart x₀ B v) := by
    have := mr.comp mc
    simpa only [Function.comp_def] using this
  have msac := measurable_sparseAccept A D hGm
  have mc' : Measurable fun v : Fin d → ℝ => (chart x₀ B u, chart x₀ B v) := measurable_const.prodMk (measurable_chart x₀ B)
  have macc' : Measurable fun v => sparseAccept A D Gf (chart x₀ B u) (chart x₀ B v) := by
    have := msac.comp mc'
    simpa only [Function.comp_def] using this
  have law1 : (stdNormal n).map (sparseCoordProp A D (fun _ => G1) x₀ B u) =
      volume.withDensity fun v => ENNReal.ofReal (c * Real.exp (kerLogDens A D G1 (chart x₀ B u) (chart x₀ B v))) := by
    rw [sparseCoordProp_law hA hD hB hp' hdens hx]; rfl
  have law2 : (stdNormal n).map (sparseCoordProp A D Gf x₀ B u) =
      volume.withDensity fun v => ENNReal.ofReal (c * Real.exp (kerLogDens A D (Gf (chart x₀ B u)) (chart x₀ B u) (chart x₀ B v))) := by
    rw [sparseCoordProp_law hA hD hB hGpos hdens hx]; rfl
  have hle : ∀ᵐ v ∂(volume.restrict (chart x₀ B ⁻¹' TailNonneg n k)),
      |c * Real.exp (kerLogDens A D G1 (chart x₀ B u) (chart x₀ B v)) * memAcc A D Gm W (chart x₀ B u, ω) (chart x₀ B v) -
        c * Real.exp (kerLogDens A D (Gf (chart x₀ B u)) (chart x₀ B u) (chart x₀ B v)) * sparseAccept A D Gf (chart x₀ B u) (chart x₀ B v)| ≤
      c * flowBound A D Gf d τ (chart x₀ B u) (chart x₀ B v) := by
    filter_upwards [tailPos_ae hx₀ (B := B)] with v hv
    have n1 := (kerLogDens_near hA hB hD (hGpos _ hx.1) hτ (h.near _ hx.1 _ hω) (chart x₀ B u) (chart x₀ B v)).2
    have n2 := (kerLogDens_near hA hB hD (hGpos _ hx.1) hτ (h.near _ hx.1 _ b1) (chart x₀ B u) (chart x₀ B v)).2
    have n3 := (kerLogDens_near hA hB hD (hGpos _ hv) hτ (h.near _ hv _ b2) (chart x₀ B v) (chart x₀ B u)).2
    have q1 := kerQuad_nonneg hD (hGpos _ hx.1) (chart x₀ B u) (chart x₀ B v)
    have q2 := kerQuad_nonneg hD (hGpos _ hv) (chart x₀ B v) (chart x₀ B u)
    have := flow_near (by positivity) (by positivity) hτ0 n1 n2 n3
    rw [mul_assoc, mul_assoc, ← mul_sub, abs_mul, abs_of_pos hc]
    exact mul_le_mul_of_nonneg_left this hc.le
  have hmain := mh_near (l := (volume : Measure (Fin d → ℝ))) (ν := stdNormal n) (K := chart x₀ B ⁻¹' TailNonneg n k)
    (measurable_chart x₀ B (measurableSet_tailNonneg n k)) (prop := sparseCoordProp A D (fun _ => G1) x₀ B u)
    (prop' := sparseCoordProp A D Gf x₀ B u) (a := fun v => memAcc A D Gm W (chart x₀ B u, ω) (chart x₀ B v))
    (a' := fun v => sparseAccept A D Gf (chart x₀ B u) (chart x₀ B v))
    (p := fun v => c * Real.exp (kerLogDens A D G1 (chart x₀ B u) (chart x₀ B v)))
    (p' := fun v => c * Real.exp (kerLogDens A D (Gf (chart x₀ B u)) (chart x₀ B u) (chart x₀ B v))) u
    (measurable_sparseCoordProp u) ((Real.measurable_exp.comp kd).const_mul c) (fun v => by positivity)
    law1 macc (fun v => le_min zero_le_one (Real.exp_pos _).le) (fun v => min_le_left _ _)
    (measurable_sparseCoordProp u) ((Real.measurable_exp.comp kd).const_mul c) (fun v => by positivity)
    law2 macc' (fun v => le_min zero_le_one (Real.exp_pos _).le) (fun v => min_le_left _ _)
    (D := fun v => c * flowBound A D Gf d τ (chart x₀ B u) (chart x₀ B v))
    (integrable_flowBound hA hD hx₀ hB hGm hGpos hc hdens hτ0 (by linarith) hx.1) hle
    (hf.comp (measurable_chart x₀ B))
  have hmain' : |∫ w, f (memMove A D Gm W k (chart x₀ B u, ω) w).1 ∂((stdNormal n).prod unitLaw) -
      ∫ w, f (mhMove (TailNonneg n k) (sparseProp A D Gf) (sparseAccept A D Gf) (chart x₀ B u) w) ∂((stdNormal n).prod unitLaw)| ≤
      2 * ∫ v in chart x₀ B ⁻¹' TailNonneg n k, c * flowBound A D Gf d τ (chart x₀ B u) (chart x₀ B v) := by
    simp only [L1, L2]
    exact hmain
  exact (le_min bound2 hmain').trans (le_max_right _ _)

end

end PW
