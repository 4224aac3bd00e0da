import Verif.Lemmas.MHErgodic
import Verif.Lemmas.Follows

/-! # From the chain to the rows a call returns -/

namespace PW
open MeasureTheory Set Filter Topology
open scoped ENNReal

/-- `φ / M` cut off to `[-1, 1]`. -/
noncomputable def clampTo {X : Type} (M : ℝ) (φ : X → ℝ) (y : X) : ℝ := max (-1) (min 1 (φ y / M))

theorem clampTo_bdd {X : Type} [MeasurableSpace X] (M : ℝ) {φ : X → ℝ} (hφ : Measurable φ) : Bdd 1 (clampTo M φ) :=
  ⟨measurable_const.max (measurable_const.min (hφ.div_const M)), fun y => by
    rw [abs_le]; exact ⟨le_max_left _ _, max_le (by norm_num) (min_le_left _ _)⟩⟩

theorem clampTo_eq {X : Type} {M : ℝ} (hM : 0 < M) {φ : X → ℝ} {y : X} (h : |φ y| ≤ M) : clampTo M φ y = φ y / M := by
  have h1 := abs_le.1 h
  have h2 : φ y / M ≤ 1 := by rw [div_le_one hM]; exact h1.2
  have h3 : -1 ≤ φ y / M := by rw [le_div_iff₀ hM]; linarith [h1.1]
  unfold clampTo
  rw [min_eq_right h2, max_eq_right h3]

/-! ## Metropolis-Hastings walks -/

section
variable {X Y Ξ : Type} [MeasurableSpace X] [MeasurableSpace Y] [MeasurableSpace Ξ] {N : Measure Ξ} {C V : Set X} {l : Measure Y} {c : Y → X}
  {P : X → Ξ → X} {a : X → X → ℝ} {prop : Y → Ξ → Y} {q : Y → Y → ℝ≥0∞} (h : MHBase N C V l c P a prop q)
include h

theorem MHBase.target_univ : mhTarget C l c univ = l (c ⁻¹' C) := by
  unfold mhTarget
  rw [Measure.map_apply h.measc MeasurableSet.univ, preimage_univ, Measure.restrict_apply_univ]

theorem MHBase.prob_share (T : Set X) : (mhProb C l c T).toReal = PW.share (mhTarget C l c) T := by
  unfold PW.share mhProb
  rw [h.target_univ, Measure.smul_apply, smul_eq_mul, ENNReal.toReal_mul, ENNReal.toReal_inv]
  ring

theorem MHBase.prob_average (φ : X → ℝ) : ∫ x, φ x ∂(mhProb C l c) = PW.average (mhTarget C l c) φ := by
  unfold PW.average mhProb
  rw [h.target_univ, integral_smul_measure, smul_eq_mul, ENNReal.toReal_inv]
  ring

theorem MHBase.prob_ae : ∀ᵐ x ∂(mhProb C l c), x ∈ V := by
  have h1 : ∀ᵐ x ∂(mhTarget C l c), x ∈ V := by
    unfold mhTarget
    rw [ae_map_iff (p := fun x => x ∈ V) h.measc.aemeasurable h.measV, ← Measure.restrict_congr_set h.null]
    exact ae_restrict_mem (h.measc h.measV)
  rw [ae_iff] at h1 ⊢
  unfold mhProb
  rw [Measure.smul_apply, h1, smul_zero]

end

section
variable {m n : ℕ} {Y : Type} [MeasurableSpace Y] {l : Measure Y} [SFinite l] {C V : Set (Fin n → ℝ)} {c : Y → Fin n → ℝ}
  {P : (Fin n → ℝ) → (Fin n → ℝ) → Fin n → ℝ} {acc : (Fin n → ℝ) → (Fin n → ℝ) → ℝ} {prop : Y → (Fin n → ℝ) → Y} {q : Y → Y → ℝ≥0∞}
  (h : MHData (stdNormal n) C V l c P acc prop q)
include h

/-- The law at late times is close to the target, from every starting point of `V`. -/
theorem MHData.rows {x : Fin n → ℝ} (hx : x ∈ V) {ε : ℝ} (hε : 0 < ε) : ∃ t₀ : ℕ, ∀ (w : Walk ℝ) (e : Env ℝ) [MeasurableSpace e.r.G]
    (μ : Measure e.r.G), IdealSource e.r μ → ∀ (A : Matrix (Fin m) (Fin n) ℝ) (b : Fin m → ℝ) (k seed : Int),
    (w.isSparse = true → 1 ≤ k ∧ k ≤ n) →
    (∀ niter burnin thin : Int,
      ∀ᵐ g ∂μ, Follows w e (callArgs A b x niter k burnin thin seed) ⟨rfl, rfl⟩ (posAt (mhNext e.r n C P acc) x) g) →
    ∀ t ≥ t₀, LawWithin w e μ A b x k seed (mhTarget C l c) t ε := by
  have hN : IsProbabilityMeasure (stdNormal n) := inferInstance
  have := h.prob
  obtain ⟨t₀, ht₀⟩ := h.converge hx hε
  refine ⟨t₀, fun w e _ μ hs A b k seed hk hfol t ht => LawWithin.of_follows (q := posAt (mhNext e.r n C P acc) x) hk hfol fun T hT => ?_⟩
  have := hs.prob
  have mf := measurable_mhNext e.r n (hs.gaussian n).measurable hs.uniform.measurable h.measC h.measP h.measa
  have mT := measurable_mhMove h.measC h.measP h.measa
  have bT : Bdd 1 (T.indicator (1 : (Fin n → ℝ) → ℝ)) := ⟨measurable_one.indicator hT, fun y => by
    by_cases hy : y ∈ T
    · rw [indicator_of_mem hy]; simp
    · rw [indicator_of_notMem hy]; simp⟩
  rw [← h.prob_share T]
  have h1 := markov_pos mf mT (h.drives hs) bT t x
  have h2 := ht₀ _ ht _ bT
  rw [← h1, integral_indicator_one hT] at h2
  have h3 : ∫ g, T.indicator (1 : (Fin n → ℝ) → ℝ) (posAt (mhNext e.r n C P acc) x t g) ∂μ =
      (μ {g | posAt (mhNext e.r n C P acc) x t g ∈ T}).toReal := by
    have h4 := integral_indicator_one (μ := μ) ((measurable_posAt mf x t) hT)
    exact h4
  rw [h3] at h2
  exact h2

/-- Averages over many positions are close to the mean over the target. -/
theorem MHData.averages {x : Fin n → ℝ} (hx : x ∈ V) {φ : (Fin n → ℝ) → ℝ} (hφ : Measurable φ) {M : ℝ} (hM : 0 < M) (hφM : ∀ y ∈ V, |φ y| ≤ M)
    {ε δ : ℝ} (hε : 0 < ε) (hδ : 0 < δ) : ∃ L₀ : ℕ, ∀ (w : Walk ℝ) (e : Env ℝ) [MeasurableSpace e.r.G]
    (μ : Measure e.r.G), IdealSource e.r μ → ∀ (A : Matrix (Fin m) (Fin n) ℝ) (b : Fin m → ℝ) (k seed : Int),
    (w.isSparse = true → 1 ≤ k ∧ k ≤ n) →
    (∀ niter burnin thin : Int,
      ∀ᵐ g ∂μ, Follows w e (callArgs A b x niter k burnin thin seed) ⟨rfl, rfl⟩ (posAt (mhNext e.r n C P acc) x) g) →
    ∀ L ≥ L₀, MeanWithin w e μ A b x k seed φ (average (mhTarget C l c) φ) L ε δ := by
  have hN : IsProbabilityMeasure (stdNormal n) := inferInstance
  have := h.prob
  have mT := measurable_mhMove h.measC h.measP h.measa
  have bφ : Bdd 1 (clampTo M φ) := clampTo_bdd M hφ
  obtain ⟨L₀, hL₀, hmse⟩ := mean_square mT (x := x) (fun ε hε => h.converge hx hε) bφ (h.l1 bφ) (ε := δ * ε ^ 2 / M ^ 2) (by positivity)
  refine ⟨L₀, fun w e _ μ hs A b k seed hk hfol L hL => MeanWithin.of_follows (q := posAt (mhNext e.r n C P acc) x) hk hfol fun B τ hτ => ?_⟩
  have := hs.prob
  have mf := measurable_mhNext e.r n (hs.gaussian n).measurable hs.uniform.measurable h.measC h.measP h.measa
  have hc : ∫ y, clampTo M φ y ∂(mhProb C l c) = average (mhTarget C l c) φ / M := by
    rw [← h.prob_average, ← integral_div]
    exact integral_congr_ae (h.prob_ae.mono fun y hy => clampTo_eq hM (hφM y hy))
  have hK : ∀ᵐ g ∂μ, ∀ t, posAt (mhNext e.r n C P acc) x t g ∈ V := by
    have := ae_all_iff.2 fun t => h.good hs t x hx
    filter_upwards [this] with g hg t using (hg t _ rfl).1
  have h1 := hmse μ (mhNext e.r n C P acc) mf (h.drives hs) L hL (B + τ) τ hτ
  rw [hc] at h1
  have ht : ∀ i, B + τ + i * τ = B + (i + 1) * τ := fun i => by ring
  simp only [ht] at h1
  have h2 := markov_close (fun t => measurable_posAt mf x t) hK (hL₀.trans hL) (fun i => B + (i + 1) * τ) (φ := φ) bφ.meas bφ.le
    (c := average (mhTarget C l c) φ) hM
    (fun y hy => by rw [clampTo_eq hM (hφM y hy), sub_div, sub_add_cancel]) hε h1
  have h3 : M ^ 2 / ε ^ 2 * (δ * ε ^ 2 / M ^ 2) = δ := by field_simp
  rw [h3] at h2
  exact h2

end

end PW
