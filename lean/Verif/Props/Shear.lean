import Verif.Props.SameLawExamples
import Mathlib.LinearAlgebra.Matrix.NonsingularInverse

/-!
# C110: DikinWalk and VaidyaWalk depend on the coordinates

The barrier walks of the literature do not notice a linear change of coordinates. The walks of the library do: after the change `(u, v) ↦ (u - v, v)` of the unit
square the law of the samples is not the image of what it was, and the difference does not go away with time.
-/

namespace PW
open Matrix MeasureTheory Set
open PW.RealToy

/-- The constraints `x ≤ 1`, `y ≤ 1`, `-x ≤ 0`, `-y ≤ 0`; with right-hand side `paraB` the unit square. -/
def unitSqA : Matrix (Fin 4) (Fin 2) ℝ := !![1, 0; 0, 1; -1, 0; 0, -1]

/-- A change of coordinates. -/
def shear : Matrix (Fin 2) (Fin 2) ℝ := !![1, -1; 0, 1]

theorem unitSq_mulVec (x : Fin 2 → ℝ) : unitSqA *ᵥ x = ![x 0, x 1, -x 0, -x 1] := by
  funext i
  fin_cases i <;> simp [unitSqA, Matrix.mulVec, dotProduct, Fin.sum_univ_two]

theorem shear_mulVec (x : Fin 2 → ℝ) : shear *ᵥ x = ![x 0 - x 1, x 1] := by
  funext i
  fin_cases i <;> simp [shear, Matrix.mulVec, dotProduct, Fin.sum_univ_two] <;> ring

/-- The same numbers: what a user who changes coordinates passes. -/
theorem para_shear (x : Fin 2 → ℝ) : paraA *ᵥ (shear *ᵥ x) = unitSqA *ᵥ x := by
  rw [para_mulVec, unitSq_mulVec, shear_mulVec]
  funext i
  fin_cases i <;> simp

theorem shear_poly (x : Fin 2 → ℝ) : shear *ᵥ x ∈ Poly paraA paraB ↔ x ∈ Poly unitSqA paraB := by
  show (∀ i, (paraA *ᵥ (shear *ᵥ x)) i ≤ paraB i) ↔ ∀ i, (unitSqA *ᵥ x) i ≤ paraB i
  rw [para_shear]

theorem shear_interior {x : Fin 2 → ℝ} (hx : x ∈ Interior unitSqA paraB) : shear *ᵥ x ∈ Interior paraA paraB := by
  show ∀ i, (paraA *ᵥ (shear *ᵥ x)) i < paraB i
  rw [para_shear]
  exact hx

theorem unitSq_axis : AxisAligned unitSqA := by
  intro i j k
  fin_cases i <;> fin_cases j <;> fin_cases k <;> simp [unitSqA]

theorem unitSq_bdd : ∃ M, ∀ y ∈ Poly unitSqA paraB, ∀ i, |y i| ≤ M := by
  refine ⟨1, fun y hy i => ?_⟩
  have h : ∀ i, (unitSqA *ᵥ y) i ≤ paraB i := hy
  rw [unitSq_mulVec] at h
  have h0 := h 0
  have h1 := h 1
  have h2 := h 2
  have h3 := h 3
  simp [paraB] at h0 h1 h2 h3
  fin_cases i <;> simp only [abs_le] <;> constructor <;> simp <;> linarith

theorem shear_volume : MeasurePreserving (fun x : Fin 2 → ℝ => shear *ᵥ x) volume volume := by
  refine ⟨measurable_mulVec shear, ?_⟩
  have h := Real.map_matrix_volume_pi_eq_smul_volume_pi (M := shear) (by simp [shear, Matrix.det_fin_two])
  have e : (Matrix.toLin' shear : (Fin 2 → ℝ) → Fin 2 → ℝ) = fun x => shear *ᵥ x := by funext x; rw [Matrix.toLin'_apply]
  rw [e] at h
  rw [h]
  simp [shear, Matrix.det_fin_two]

theorem shear_share {T : Set (Fin 2 → ℝ)} (hT : MeasurableSet T) :
    share (uniformOn unitSqA paraB) ((fun x => shear *ᵥ x) ⁻¹' T) = share (uniformOn paraA paraB) T := by
  have hK : (fun x => shear *ᵥ x) ⁻¹' Poly paraA paraB = Poly unitSqA paraB := by ext x; exact shear_poly x
  have h : MeasurePreserving (fun x : Fin 2 → ℝ => shear *ᵥ x) (uniformOn unitSqA paraB) (uniformOn paraA paraB) := by
    have := shear_volume.restrict_preimage (measurableSet_poly paraA paraB)
    rwa [hK] at this
  unfold share
  rw [h.measure_preimage hT.nullMeasurableSet, ← h.measure_preimage MeasurableSet.univ.nullMeasurableSet, preimage_univ]

/-- Near a law and apart from its image is apart. -/
theorem lawsApart_of {w w' : Walk ℝ} {e e' : Env ℝ} [MeasurableSpace e.r.G] [MeasurableSpace e'.r.G] {μ : Measure e.r.G} {μ' : Measure e'.r.G}
    {x : Fin 2 → ℝ} {k k' : Int} {t : ℕ} {ε : ℝ} {T : Set (Fin 2 → ℝ)} (hT : MeasurableSet T)
    (h : ∀ seed, LawWithin w e μ unitSqA paraB x k seed (uniformOn unitSqA paraB) t (ε / 2))
    (h' : ∀ seed, LawApart w' e' μ' paraA paraB (shear *ᵥ x) k' seed (uniformOn paraA paraB) t ε T) :
    LawsApart w e μ unitSqA paraB x k w' e' μ' paraA paraB (shear *ᵥ x) k' (fun y => shear *ᵥ y) t (ε / 2) T := by
  have mT : MeasurableSet ((fun x => shear *ᵥ x) ⁻¹' T) := measurable_mulVec shear hT
  have key : ∀ {p q s : ℝ}, |p - s| ≤ ε / 2 → ε ≤ |q - s| → ε / 2 ≤ |q - p| := fun {p q s} h1 h2 => by
    have := abs_sub_le q p s
    linarith
  intro niter burnin thin seed seed'
  obtain ⟨h1, h2⟩ := h seed niter burnin thin _ mT
  obtain ⟨h3, h4⟩ := h' seed' niter burnin thin
  rw [shear_share hT] at h1 h2
  exact ⟨key h1 h3, fun hg j hj ht => key (h2 hg j hj ht) (h4 hg j hj ht)⟩

theorem LawsApart.not_same {m n m' n' : ℕ} {w w' : Walk ℝ} {e e' : Env ℝ} [MeasurableSpace e.r.G] [MeasurableSpace e'.r.G] {μ : Measure e.r.G}
    {μ' : Measure e'.r.G} {A : Matrix (Fin m) (Fin n) ℝ} {b : Fin m → ℝ} {x : Fin n → ℝ} {k : Int} {A' : Matrix (Fin m') (Fin n') ℝ} {b' : Fin m' → ℝ}
    {x' : Fin n' → ℝ} {k' : Int} {φ : (Fin n → ℝ) → Fin n' → ℝ} {t : ℕ} {ε : ℝ} {T : Set (Fin n' → ℝ)} (hε : 0 < ε) (hT : MeasurableSet T)
    (h : LawsApart w e μ A b x k w' e' μ' A' b' x' k' φ t ε T) : ¬ SameLaw w e μ A b x k w' e' μ' A' b' x' k' φ := by
  intro hs
  have h1 := (h 0 0 0 0 0).1
  have h2 := hs.paths 0 0 0 0 0 _ (measurable_pi_apply t hT)
  have h3 : pathProb w' e' μ' (callArgs A' b' x' 0 k' 0 0 0) ⟨rfl, rfl⟩ {p | p t ∈ T} =
    pathProb w e μ (callArgs A b x 0 k 0 0 0) ⟨rfl, rfl⟩ {p | φ (p t) ∈ T} := h2
  rw [h3, sub_self, abs_zero] at h1
  exact absurd h1 (not_le.2 hε)

section
variable (E : Eigen ℝ) (hE : E.Exact) (R : ℝ) (hr : R ≠ 0)
include hE hr

/-- **C110** (`DikinWalk`): there is a distance `ε` such that from every interior point of the square, late enough, at one of any two successive iterations the
law after the change of coordinates is at least `ε` away from the image of the law before it, whatever the generators, seeds and objects. -/
theorem C110_dikin : ∃ ε : ℝ, 0 < ε ∧ ∀ x ∈ Interior unitSqA paraB, ∃ t₀ : ℕ, ∀ t ≥ t₀, ∃ T, MeasurableSet T ∧ ∃ s, (s = t ∨ s = t + 1) ∧
    ∀ (o o' : BState ℝ) (e : Env ℝ) [MeasurableSpace e.r.G] (μ : Measure e.r.G) (e' : Env ℝ) [MeasurableSpace e'.r.G] (μ' : Measure e'.r.G),
      IdealSource e.r μ → IdealSource e'.r μ' → ∀ k k' : Int,
        LawsApart (.barrier (dikinClass R) E o) e μ unitSqA paraB x k (.barrier (dikinClass R) E o') e' μ' paraA paraB (shear *ᵥ x) k'
          (fun y => shear *ᵥ y) s ε T := by
  obtain ⟨ε, hε, h⟩ := C78_dikin E hE R hr
  refine ⟨ε / 2, half_pos hε, fun x hx => ?_⟩
  obtain ⟨t₀, h0⟩ := C66_dikin E hE R hr (by decide) unitSq_axis unitSq_bdd hx (ε / 2) (half_pos hε)
  refine ⟨t₀, fun t ht => ?_⟩
  obtain ⟨T, hT, s, h1, h2⟩ := h _ (shear_interior hx) t
  exact ⟨T, hT, s, h1, fun o o' e _ μ e' _ μ' hs hs' k k' =>
    lawsApart_of hT (fun seed => h0 o e μ hs k seed s (by omega)) fun seed => h2 o' e' μ' hs' k' seed⟩

/-- **C110** (`VaidyaWalk`). -/
theorem C110_vaidya : ∃ ε : ℝ, 0 < ε ∧ ∀ x ∈ Interior unitSqA paraB, ∃ t₀ : ℕ, ∀ t ≥ t₀, ∃ T, MeasurableSet T ∧ ∃ s, (s = t ∨ s = t + 1) ∧
    ∀ (o o' : BState ℝ) (e : Env ℝ) [MeasurableSpace e.r.G] (μ : Measure e.r.G) (e' : Env ℝ) [MeasurableSpace e'.r.G] (μ' : Measure e'.r.G),
      IdealSource e.r μ → IdealSource e'.r μ' → ∀ k k' : Int,
        LawsApart (.barrier (vaidyaClass E R) E o) e μ unitSqA paraB x k (.barrier (vaidyaClass E R) E o') e' μ' paraA paraB (shear *ᵥ x) k'
          (fun y => shear *ᵥ y) s ε T := by
  obtain ⟨ε, hε, h⟩ := C78_vaidya E hE R hr
  refine ⟨ε / 2, half_pos hε, fun x hx => ?_⟩
  obtain ⟨t₀, h0⟩ := C66_vaidya E hE R hr (by decide) unitSq_axis unitSq_bdd hx (by decide) (ε / 2) (half_pos hε)
  refine ⟨t₀, fun t ht => ?_⟩
  obtain ⟨T, hT, s, h1, h2⟩ := h _ (shear_interior hx) t
  exact ⟨T, hT, s, h1, fun o o' e _ μ e' _ μ' hs hs' k k' =>
    lawsApart_of hT (fun seed => h0 o e μ hs k seed s (by omega)) fun seed => h2 o' e' μ' hs' k' seed⟩

variable (x : Fin 2 → ℝ) (hx : x ∈ Interior unitSqA paraB) (o o' : BState ℝ) (e : Env ℝ) [MeasurableSpace e.r.G] (μ : Measure e.r.G) (hs : IdealSource e.r μ)
  (e' : Env ℝ) [MeasurableSpace e'.r.G] (μ' : Measure e'.r.G) (hs' : IdealSource e'.r μ') (k k' : Int)
include hx hs hs'

/-- **C110**, in the terms of C108 and C109 (`DikinWalk`): the change of coordinates does not take the law to the law. -/
theorem C110_dikin_law : ¬ SameLaw (.barrier (dikinClass R) E o) e μ unitSqA paraB x k (.barrier (dikinClass R) E o') e' μ' paraA paraB (shear *ᵥ x) k'
    fun y => shear *ᵥ y := by
  obtain ⟨ε, hε, h⟩ := C110_dikin E hE R hr
  obtain ⟨t₀, h0⟩ := h x hx
  obtain ⟨T, hT, s, -, h1⟩ := h0 t₀ le_rfl
  exact (h1 o o' e μ e' μ' hs hs' k k').not_same hε hT

/-- **C110**, in the terms of C108 and C109 (`VaidyaWalk`). -/
theorem C110_vaidya_law : ¬ SameLaw (.barrier (vaidyaClass E R) E o) e μ unitSqA paraB x k (.barrier (vaidyaClass E R) E o') e' μ' paraA paraB (shear *ᵥ x) k'
    fun y => shear *ᵥ y := by
  obtain ⟨ε, hε, h⟩ := C110_vaidya E hE R hr
  obtain ⟨t₀, h0⟩ := h x hx
  obtain ⟨T, hT, s, -, h1⟩ := h0 t₀ le_rfl
  exact (h1 o o' e μ e' μ' hs hs' k k').not_same hε hT

end

/-- The centre of the unit square. -/
theorem unitSq_centre : (fun _ => 1 / 2 : Fin 2 → ℝ) ∈ Interior unitSqA paraB := by
  show ∀ i, (unitSqA *ᵥ _) i < paraB i
  rw [unitSq_mulVec]
  intro i
  fin_cases i <;> simp [paraB] <;> norm_num

example := C110_dikin_law exactEigen exactEigen_exact (1 / 2) (by norm_num) _ unitSq_centre (BState.fresh 0) (BState.fresh 0) streamEnv streamLaw streamRng_ideal
  flipEnv streamLaw flipEnv_ideal 0 0
example := C110_vaidya_law exactEigen exactEigen_exact (1 / 2) (by norm_num) _ unitSq_centre (BState.fresh 0) (BState.fresh 0) streamEnv streamLaw streamRng_ideal
  flipEnv streamLaw flipEnv_ideal 0 0

end PW
