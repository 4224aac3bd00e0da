import Verif.Lemmas.DenseMH
import Verif.Lemmas.MHReverse
import Mathlib.MeasureTheory.Measure.OpenPos

/-! # When the dense barrier walks are reversible -/

namespace PW
open Matrix MeasureTheory Set
open scoped ENNReal
variable {m n : ℕ}

theorem isOpen_interior (A : Matrix (Fin m) (Fin n) ℝ) (b : Fin m → ℝ) : IsOpen (Interior A b) := by
  have : Interior A b = ⋂ i, {x | A.mulVec x i < b i} := by ext; simp [Interior]
  rw [this]
  exact isOpen_iInter_of_finite fun i => isOpen_lt
    ((continuous_apply i).comp (Continuous.matrix_mulVec continuous_const continuous_id)) continuous_const

namespace MetricField
variable (Φ : MetricField n)

theorem dens_nonneg (D : ℝ) (x z : Fin n → ℝ) : 0 ≤ Φ.dens D x z := by
  unfold dens gaussDensity; positivity

theorem balance_ennreal_iff {D : ℝ} (hD : 0 < D) (x z : Fin n → ℝ) :
    ENNReal.ofReal (Φ.dens D x z) * ENNReal.ofReal (Φ.acc D x z) =
      ENNReal.ofReal (Φ.dens D z x) * ENNReal.ofReal (Φ.acc D z x) ↔ Φ.defect x z = Φ.defect z x := by
  rw [← ENNReal.ofReal_mul (Φ.dens_nonneg D x z), ← ENNReal.ofReal_mul (Φ.dens_nonneg D z x),
    ENNReal.ofReal_eq_ofReal_iff (mul_nonneg (Φ.dens_nonneg D x z) (Φ.acc_nonneg D x z))
      (mul_nonneg (Φ.dens_nonneg D z x) (Φ.acc_nonneg D z x)), Φ.balance_iff hD]

theorem continuousOn_defect {V : Set (Fin n → ℝ)} (hH : ∀ i j, ContinuousOn (fun x => Φ.H x i j) V) :
    ContinuousOn (fun p : (Fin n → ℝ) × (Fin n → ℝ) => Φ.defect p.1 p.2) (V ×ˢ V) := by
  have hL : ∀ i j, ContinuousOn (fun x => Φ.L x i j) V :=
    IsCholesky.continuousOn (fun x _ => Φ.chol x) hH
  have hfst : ContinuousOn (fun p : (Fin n → ℝ) × (Fin n → ℝ) => p.1) (V ×ˢ V) := continuous_fst.continuousOn
  have hmaps : MapsTo (fun p : (Fin n → ℝ) × (Fin n → ℝ) => p.1) (V ×ˢ V) V := fun p hp => hp.1
  have hδ : ∀ i, ContinuousOn (fun p : (Fin n → ℝ) × (Fin n → ℝ) => p.2 i - p.1 i) (V ×ˢ V) := fun i =>
    (((continuous_apply i).comp continuous_snd).sub ((continuous_apply i).comp continuous_fst)).continuousOn
  unfold defect
  simp only [dotProduct, Matrix.mulVec, Matrix.sub_apply, Matrix.mul_apply, Matrix.transpose_apply, Pi.sub_apply]
  refine continuousOn_finsetSum _ fun i _ => (hδ i).mul (continuousOn_finsetSum _ fun j _ => ?_)
  refine ContinuousOn.mul ?_ (hδ j)
  refine ((hH i j).comp hfst hmaps).sub (continuousOn_finsetSum _ fun k _ => ?_)
  exact ((hL k i).comp hfst hmaps).mul ((hL k j).comp hfst hmaps)

end MetricField

section
variable {σ : Type} (cls : BarrierClass ℝ σ) (E : Eigen ℝ) (hL : E.LltExact) (hLU : E.LuExact)
    (r : Rng ℝ) [MeasurableSpace r.G] (μ : Measure r.G) (hs : IdealSource r μ)
    (A : Matrix (Fin m) (Fin n) ℝ) (b : Fin m → ℝ) (hm : 0 < m) (hA : IndepCols A) (o : σ)
    (hD : 0 < cls.distTerm o) (x₀ : Fin n → ℝ) (hx₀ : x₀ ∈ Interior A b)
    (w : (Fin n → ℝ) → Fin m → ℝ) (hw : ∀ i, Measurable fun x => w x i)
    (hpos : ∀ x ∈ Interior A b, ∀ i, 0 < w x i)
    (hG : ∀ x ∈ Interior A b, generateHessian cls o x A b = .ok (hessianOf (w x) x A b, o))
include hLU hs hm hD hx₀ hG

/-- If the defect is symmetric, the walk satisfies detailed balance. -/
theorem denseBarrier_stepLaw
    (hdef : ∀ x ∈ Interior A b, ∀ z ∈ Interior A b, (barrierField E hL A b hA w hw hpos).defect x z =
      (barrierField E hL A b hA w hw hpos).defect z x) :
    StepLaw (uniformOn A b) μ ((stdNormal n).prod unitLaw) (fun x g => (x, o, g))
      (BarrierWalk.step cls E r A b)
      (mhNext r n (Poly A b) ((barrierField E hL A b hA w hw hpos).prop (cls.distTerm o))
        ((barrierField E hL A b hA w hw hpos).acc (cls.distTerm o)))
      (mhMove (Poly A b) ((barrierField E hL A b hA w hw hpos).prop (cls.distTerm o))
        ((barrierField E hL A b hA w hw hpos).acc (cls.distTerm o))) := by
  refine ⟨denseBarrier_kernel cls E hL hLU r μ hs A b hm hA o hD x₀ hx₀ w hw hpos hG, ?_⟩
  generalize barrierField E hL A b hA w hw hpos = Φ at hdef ⊢
  generalize cls.distTerm o = D at hD ⊢
  have := hs.probN n
  intro F hF
  exact mh_balance (l := volume) (ν := stdNormal n) (measurableSet_poly A b) (measurableSet_interior A b)
    (poly_boundary_null hx₀) (prop := Φ.prop D) (a := Φ.acc D)
    (q := fun x z => ENNReal.ofReal (Φ.dens D x z))
    (fun u _ => (Φ.meas_prop D).comp measurable_prodMk_left) (Φ.meas_dens D).ennreal_ofReal
    (fun u _ => Φ.law hD u) (Φ.meas_acc D) (Φ.acc_nonneg D) (Φ.acc_le D)
    (fun u hu v hv => (Φ.balance_ennreal_iff hD u v).2 (hdef u hu v hv)) F hF

/-- **Reversibility of a dense barrier walk** with continuous weights: exactly if the defect is symmetric. -/
theorem denseBarrier_reversible_iff (hwc : ∀ i, ContinuousOn (fun x => w x i) (Interior A b)) :
    Reversible (uniformOn A b) μ (fun x g => (x, o, g)) Prod.fst (BarrierWalk.step cls E r A b) ↔
      ∀ x ∈ Interior A b, ∀ z ∈ Interior A b, (barrierField E hL A b hA w hw hpos).defect x z =
        (barrierField E hL A b hA w hw hpos).defect z x := by
  have hprob := hs.prob
  have hprobN := hs.probN n
  constructor
  · intro hrev
    have hk := denseBarrier_kernel cls E hL hLU r μ hs A b hm hA o hD x₀ hx₀ w hw hpos hG
    have hHc : ∀ i j, ContinuousOn (fun x => (barrierField E hL A b hA w hw hpos).H x i j) (Interior A b) := by
      intro i j
      have e : EqOn (fun x => (barrierField E hL A b hA w hw hpos).H x i j)
          (fun x => ∑ l, A l i * (w x l / (b l - (A *ᵥ x) l) ^ 2) * A l j) (Interior A b) := by
        intro x hx
        have : (barrierField E hL A b hA w hw hpos).H x = hessianOf (w x) x A b := if_pos hx
        simp only [this, hessianOf_real]
        rw [Matrix.mul_apply]
        exact Finset.sum_congr rfl fun l _ => by rw [Matrix.mul_diagonal, Matrix.transpose_apply]
      refine ContinuousOn.congr ?_ e
      refine continuousOn_finsetSum _ fun l _ => ContinuousOn.mul (ContinuousOn.mul continuousOn_const ?_)
        continuousOn_const
      refine (hwc l).div ?_ fun x hx => pow_ne_zero 2 (Interior.slack_pos hx l).ne'
      exact ((continuous_const.sub ((continuous_apply l).comp
        (Continuous.matrix_mulVec continuous_const continuous_id))).pow 2).continuousOn
    generalize barrierField E hL A b hA w hw hpos = Φ at hk hHc ⊢
    generalize cls.distTerm o = D at hD hk
    intro x hx z hz
    obtain ⟨ρ, hρ⟩ : ∃ ρ : ℝ, x ∈ Metric.ball (0 : Fin n → ℝ) ρ ∧ z ∈ Metric.ball (0 : Fin n → ℝ) ρ := by
      refine ⟨‖x‖ + ‖z‖ + 1, ?_, ?_⟩
      · rw [mem_ball_zero_iff]; linarith [norm_nonneg z]
      · rw [mem_ball_zero_iff]; linarith [norm_nonneg x]
    set V := Interior A b ∩ Metric.ball (0 : Fin n → ℝ) ρ with hVdef
    have hVo : IsOpen V := (isOpen_interior A b).inter Metric.isOpen_ball
    have hVfin : (volume : Measure (Fin n → ℝ)) V ≠ ∞ :=
      ne_top_of_le_ne_top (Metric.isBounded_ball.measure_lt_top (μ := volume)).ne (measure_mono inter_subset_right)
    have hae := mh_reversible_ae (l := volume) (ν := stdNormal n) (q := fun x z => ENNReal.ofReal (Φ.dens D x z))
      (measurableSet_poly A b) hk (pos := Prod.fst) (fun _ _ => rfl) hVo.measurableSet
      (inter_subset_left.trans (interior_subset A b)) hVfin
      (fun u _ => (Φ.meas_prop D).comp measurable_prodMk_left) (Φ.meas_dens D).ennreal_ofReal
      (fun u _ => Φ.law hD u) (Φ.meas_acc D) (Φ.acc_nonneg D) (Φ.acc_le D) hrev
    rw [Measure.prod_restrict] at hae
    have hc := Φ.continuousOn_defect (V := V) fun i j => (hHc i j).mono inter_subset_left
    have hsw : ContinuousOn (fun p : (Fin n → ℝ) × (Fin n → ℝ) => Φ.defect p.2 p.1) (V ×ˢ V) :=
      hc.comp continuous_swap.continuousOn fun p hp => ⟨hp.2, hp.1⟩
    have hEq := Measure.eqOn_open_of_ae_eq (μ := (volume : Measure (Fin n → ℝ)).prod volume)
      (f := fun p : (Fin n → ℝ) × (Fin n → ℝ) => Φ.defect p.1 p.2) (g := fun p => Φ.defect p.2 p.1)
      (hae.mono fun p hp => (Φ.balance_ennreal_iff hD p.1 p.2).1 hp) (hVo.prod hVo) hc hsw
    exact hEq (show (x, z) ∈ V ×ˢ V from ⟨⟨hx, hρ.1⟩, ⟨hz, hρ.2⟩⟩)
  · intro hdef
    exact (denseBarrier_stepLaw cls E hL hLU r μ hs A b hm hA o hD x₀ hx₀ w hw hpos hG hdef).reversible
      fun _ _ => rfl

end
end PW
