import Verif.Spec.SameLaw
import Verif.Lemmas.Continue
import Mathlib.MeasureTheory.Constructions.Projective

/-! # Chains whose moves correspond have corresponding laws -/

namespace PW
open MeasureTheory Set
open scoped ENNReal

/-- The law of a path is determined by the laws of its beginnings. -/
theorem path_ext {X : Type} [MeasurableSpace X] {α β : Measure (ℕ → X)} [IsFiniteMeasure α] [IsFiniteMeasure β]
    (h : ∀ s : ℕ, α.map (fun p t => p (min t s)) = β.map (fun p t => p (min t s))) : α = β := by
  have mst : ∀ s : ℕ, Measurable fun (p : ℕ → X) t => p (min t s) := fun s => measurable_pi_lambda _ fun t => measurable_pi_apply _
  refine IsProjectiveLimit.unique (P := fun I : Finset ℕ => β.map I.restrict) (fun I => ?_) (fun I => rfl)
  have e : (I.restrict : (ℕ → X) → _) = I.restrict ∘ fun (p : ℕ → X) t => p (min t (I.sup id)) := by
    funext p i
    show p i = p (min i.1 (I.sup id))
    rw [min_eq_left (show i.1 ≤ I.sup id from Finset.le_sup (f := id) i.2)]
  show α.map I.restrict = β.map I.restrict
  rw [e, ← Measure.map_map (Finset.measurable_restrict I) (mst _), h, Measure.map_map (Finset.measurable_restrict I) (mst _)]

section
variable {X W G X' W' G' : Type} [MeasurableSpace X] [MeasurableSpace W] [MeasurableSpace G] [MeasurableSpace X'] [MeasurableSpace W'] [MeasurableSpace G']
  {μ : Measure G} [IsProbabilityMeasure μ] {ν : Measure W} {f : X → G → X × G} {T : X → W → X}
  {μ' : Measure G'} [IsProbabilityMeasure μ'] {ν' : Measure W'} {f' : X' → G' → X' × G'} {T' : X' → W' → X'}
  (mf : Measurable fun p : X × G => f p.1 p.2) (hd : Drives μ ν f T) (mf' : Measurable fun p : X' × G' => f' p.1 p.2) (hd' : Drives μ' ν' f' T')
  (mT' : ∀ x, Measurable (T' x)) {φ : X → X'} (hφ : Measurable φ) {ρ : W → W'} (hρ : MeasurePreserving ρ ν ν')
  (h : ∀ x w, T' (φ x) (ρ w) = φ (T x w))
include mf hd mf' hd' mT' hφ hρ h

theorem hist_transfer (s : ℕ) (x : X) {H : (ℕ → X') → ℝ≥0∞} (hH : Measurable H) :
    ∫⁻ g, H (histAt f' s (φ x, g)) ∂μ' = ∫⁻ g, H (fun t => φ (histAt f s (x, g) t)) ∂μ := by
  have mφ : Measurable fun (p : ℕ → X) t => φ (p t) := measurable_pi_lambda _ fun t => hφ.comp (measurable_pi_apply t)
  induction s generalizing x H with
  | zero =>
    have h1 : ∀ g, histAt f' 0 (φ x, g) = fun _ => φ x := fun g => funext fun t => by unfold histAt; rw [Nat.min_zero]; rfl
    have h2 : ∀ g, histAt f 0 (x, g) = fun _ => x := fun g => funext fun t => by unfold histAt; rw [Nat.min_zero]; rfl
    simp only [h1, h2]
    rw [lintegral_const, lintegral_const, measure_univ, measure_univ]
  | succ s ih =>
    have hH' : Measurable fun p : ℕ → X' => H (pathCons (φ x) p) := hH.comp (measurable_pathCons _)
    have e2 : ∀ g, (fun t => φ (histAt f (s + 1) (x, g) t)) = pathCons (φ x) fun t => φ (histAt f s (f x g) t) := fun g => by
      funext t
      rw [histAt_succ]
      cases t <;> rfl
    simp only [histAt_succ (f := f'), e2]
    have m1 : Measurable fun p : X' × G' => H (pathCons (φ x) (histAt f' s p)) := hH'.comp (measurable_histAt mf' s)
    have m2 : Measurable fun p : X × G => H (pathCons (φ x) fun t => φ (histAt f s p t)) := hH'.comp (mφ.comp (measurable_histAt mf s))
    refine (hd' _ m1 (φ x)).trans (Eq.trans ?_ (hd _ m2 x).symm)
    have m3 : Measurable fun y : X' => ∫⁻ g, H (pathCons (φ x) (histAt f' s (y, g))) ∂μ' := m1.lintegral_prod_right'
    refine (hρ.lintegral_comp (m3.comp (mT' (φ x)))).symm.trans ?_
    refine lintegral_congr fun w => ?_
    show ∫⁻ g, H (pathCons (φ x) (histAt f' s (T' (φ x) (ρ w), g))) ∂μ' = _
    rw [h]
    exact ih (T x w) hH'

/-- The law of the path. -/
theorem path_transfer (x : X) {S : Set (ℕ → X')} (hS : MeasurableSet S) :
    μ' {g | (fun t => posAt f' (φ x) t g) ∈ S} = μ {g | (fun t => φ (posAt f x t g)) ∈ S} := by
  have mp : Measurable fun g => (fun t => φ (posAt f x t g) : ℕ → X') := measurable_pi_lambda _ fun t => hφ.comp (measurable_posAt mf x t)
  have mp' : Measurable fun g => (fun t => posAt f' (φ x) t g : ℕ → X') := measurable_pi_lambda _ fun t => measurable_posAt mf' _ t
  have key : μ'.map (fun g => (fun t => posAt f' (φ x) t g : ℕ → X')) = μ.map (fun g => (fun t => φ (posAt f x t g) : ℕ → X')) := by
    have := Measure.isProbabilityMeasure_map (μ := μ') mp'.aemeasurable
    have := Measure.isProbabilityMeasure_map (μ := μ) mp.aemeasurable
    refine path_ext fun s => ?_
    have mst : Measurable fun (p : ℕ → X') t => p (min t s) := measurable_pi_lambda _ fun t => measurable_pi_apply _
    rw [Measure.map_map mst mp', Measure.map_map mst mp]
    refine Measure.ext_of_lintegral _ fun H hH => ?_
    rw [lintegral_map hH (mst.comp mp'), lintegral_map hH (mst.comp mp)]
    exact hist_transfer mf hd mf' hd' mT' hφ hρ h s x hH
  have h1 := congrArg (fun m => m S) key
  simp only [Measure.map_apply mp' hS, Measure.map_apply mp hS] at h1
  exact h1

end

/-- Two calls that follow chains whose moves correspond. -/
theorem sameLaw_of {m n m' n' : ℕ} {W W' : Type} [MeasurableSpace W] [MeasurableSpace W'] {w : Walk ℝ} {e : Env ℝ} [MeasurableSpace e.r.G]
    {μ : Measure e.r.G} [IsProbabilityMeasure μ] {ν : Measure W} {f : (Fin n → ℝ) → e.r.G → (Fin n → ℝ) × e.r.G}
    {T : (Fin n → ℝ) → W → Fin n → ℝ} {w' : Walk ℝ} {e' : Env ℝ} [MeasurableSpace e'.r.G] {μ' : Measure e'.r.G} [IsProbabilityMeasure μ']
    {ν' : Measure W'} {f' : (Fin n' → ℝ) → e'.r.G → (Fin n' → ℝ) × e'.r.G} {T' : (Fin n' → ℝ) → W' → Fin n' → ℝ}
    (mf : Measurable fun p : (Fin n → ℝ) × e.r.G => f p.1 p.2) (hd : Drives μ ν f T)
    (mf' : Measurable fun p : (Fin n' → ℝ) × e'.r.G => f' p.1 p.2) (hd' : Drives μ' ν' f' T')
    (mT' : ∀ x, Measurable (T' x)) {φ : (Fin n → ℝ) → Fin n' → ℝ} (hφ : Measurable φ) {ρ : W → W'} (hρ : MeasurePreserving ρ ν ν')
    (h : ∀ x w, T' (φ x) (ρ w) = φ (T x w)) {A : Matrix (Fin m) (Fin n) ℝ} {b : Fin m → ℝ} {k : Int} {x : Fin n → ℝ}
    {A' : Matrix (Fin m') (Fin n') ℝ} {b' : Fin m' → ℝ} {k' : Int}
    (hk : w.isSparse = true → 1 ≤ k ∧ k ≤ n) (hk' : w'.isSparse = true → 1 ≤ k' ∧ k' ≤ n')
    (hfol : ∀ niter burnin thin seed : Int, ∀ᵐ g ∂μ, Follows w e (callArgs A b x niter k burnin thin seed) ⟨rfl, rfl⟩ (posAt f x) g)
    (hfol' : ∀ niter burnin thin seed : Int,
      ∀ᵐ g ∂μ', Follows w' e' (callArgs A' b' (φ x) niter k' burnin thin seed) ⟨rfl, rfl⟩ (posAt f' (φ x)) g) :
    SameLaw w e μ A b x k w' e' μ' A' b' (φ x) k' φ where
  paths niter burnin thin seed seed' S hS := by
    rw [pathProb_follows (hfol niter burnin thin seed), pathProb_follows (hfol' niter burnin thin seed')]
    exact path_transfer mf hd mf' hd' mT' hφ hρ h x hS
  rows niter burnin thin seed seed' hg L S hS hL := by
    rw [rowsProb_follows (q := posAt f x) hk (fun niter burnin thin => hfol niter burnin thin seed) hg hL,
      rowsProb_follows (q := posAt f' (φ x)) hk' (fun niter burnin thin => hfol' niter burnin thin seed') hg hL]
    have mev : Measurable fun (p : ℕ → Fin n' → ℝ) (i : Fin L) => p (rowTime burnin thin i) :=
      measurable_pi_lambda _ fun i => measurable_pi_apply _
    exact path_transfer mf hd mf' hd' mT' hφ hρ h x (mev hS)

end PW
