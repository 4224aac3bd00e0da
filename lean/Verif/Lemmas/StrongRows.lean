import Verif.Lemmas.StrongLaw
import Verif.Lemmas.JointRows
import Verif.Lemmas.LimitLaw
import Verif.Spec.StrongLaw

/-! # From averages along the chain to the rows a call returns -/

namespace PW
open MeasureTheory Set Filter Topology
open scoped ENNReal

section
variable {m n : ℕ} {w : Walk ℝ} {e : Env ℝ} [MeasurableSpace e.r.G] {μ : Measure e.r.G} {A : Matrix (Fin m) (Fin n) ℝ} {b : Fin m → ℝ}
  {x : Fin n → ℝ} {k seed : Int} {q : ℕ → e.r.G → Fin n → ℝ}
  (hk : w.isSparse = true → 1 ≤ k ∧ k ≤ n)
  (hfol : ∀ niter burnin thin, ∀ᵐ g ∂μ, Follows w e (callArgs A b x niter k burnin thin seed) ⟨rfl, rfl⟩ q g)
include hk hfol

theorem MeanConverges.of_follows {φ : (Fin n → ℝ) → ℝ} {c : ℝ}
    (h : ∀ τ : ℕ, 1 ≤ τ → ∀ᵐ g ∂μ, ∀ s : ℕ, Tendsto (fun L : ℕ => (∑ i ∈ Finset.range L, φ (q (s + i * τ) g)) / L) atTop (𝓝 c)) :
    MeanConverges w e μ A b x k seed φ c := by
  have h1 : ∀ᵐ g ∂μ, ∀ p : Int × Int × Int, Follows w e (callArgs A b x p.1 k p.2.1 p.2.2 seed) ⟨rfl, rfl⟩ q g :=
    ae_all_iff.2 fun p => hfol _ _ _
  have h2 : ∀ᵐ g ∂μ, ∀ p : Int × Int × Int, GoodInts p.1 p.2.1 p.2.2 → ∃ (f0 : ℕ) (rows : List (Fin n → ℝ)),
      (∀ f ≥ f0, w.run ((e.withGen g).withFuel f) (callArgs A b x p.1 k p.2.1 p.2.2 seed) = .ok rows) ∧
      (rows.length : Int) = (p.1 - p.2.1) / p.2.2 ∧
      ∀ j (hj : j < rows.length), rows[j] = q (p.2.1.toNat + (j + 1) * p.2.2.toNat) g := by
    refine ae_all_iff.2 fun p => ?_
    by_cases hg : GoodInts p.1 p.2.1 p.2.2
    · filter_upwards [rows_follows (hfol p.1 p.2.1 p.2.2) hk hg] with g ⟨f0, rows, hall, hlen, hrow⟩ _
      refine ⟨f0, rows, hall, hlen, fun j hj => ?_⟩
      rw [hrow j hj]
      show q (rowTime p.2.1 p.2.2 j) g = _
      rw [rowTime_eq hg.burnin_nonneg (by have := hg.thin_pos; omega)]
    · exact ae_of_all _ fun g hg' => absurd hg' hg
  have h3 : ∀ᵐ g ∂μ, ∀ τ : ℕ, 1 ≤ τ → ∀ s : ℕ, Tendsto (fun L : ℕ => (∑ i ∈ Finset.range L, φ (q (s + i * τ) g)) / L) atTop (𝓝 c) :=
    ae_all_iff.2 fun τ => by
      by_cases hτ : 1 ≤ τ
      · exact (h τ hτ).mono fun g hg _ => hg
      · exact ae_of_all _ fun g h => absurd h hτ
  filter_upwards [h1, h2, h3] with g g1 g2 g3
  refine ⟨fun t => q t g, fun niter burnin thin => g1 (niter, burnin, thin), fun niter burnin thin hg => g2 (niter, burnin, thin) hg, fun B τ hτ => ?_⟩
  refine (g3 τ hτ (B + τ)).congr fun L => ?_
  congr 1
  refine Finset.sum_congr rfl fun i _ => ?_
  rw [show B + τ + i * τ = B + (i + 1) * τ by ring]

end

/-- Rescaling. -/
theorem tendsto_clamp {n : ℕ} {M : ℝ} (hM : 0 < M) {φ : (Fin n → ℝ) → ℝ} {K : Set (Fin n → ℝ)} (hφM : ∀ y ∈ K, |φ y| ≤ M) {p : ℕ → Fin n → ℝ}
    (hp : ∀ t, p t ∈ K) {c : ℝ} (h : Tendsto (fun L : ℕ => (∑ i ∈ Finset.range L, clampTo M φ (p i)) / L) atTop (𝓝 (c / M))) :
    Tendsto (fun L : ℕ => (∑ i ∈ Finset.range L, φ (p i)) / L) atTop (𝓝 c) := by
  have h1 := h.const_mul M
  rw [mul_div_cancel₀ c hM.ne'] at h1
  refine h1.congr fun L => ?_
  have h2 : ∀ i, clampTo M φ (p i) = φ (p i) / M := fun i => clampTo_eq hM (hφM _ (hp i))
  simp only [h2]
  rw [← Finset.sum_div]
  field_simp

section
variable {m n : ℕ} {Y : Type} [MeasurableSpace Y] {l : Measure Y} [SFinite l] {C V : Set (Fin n → ℝ)} {c : Y → Fin n → ℝ}
  {P : (Fin n → ℝ) → (Fin n → ℝ) → Fin n → ℝ} {acc : (Fin n → ℝ) → (Fin n → ℝ) → ℝ} {prop : Y → (Fin n → ℝ) → Y} {q : Y → Y → ℝ≥0∞}
  (h : MHData (stdNormal n) C V l c P acc prop q)
include h

theorem MHData.strong {x : Fin n → ℝ} (hx : x ∈ V) {φ : (Fin n → ℝ) → ℝ} (hφ : Measurable φ) {M : ℝ} (hM : 0 < M) (hφM : ∀ y ∈ V, |φ y| ≤ M)
    (w : Walk ℝ) (e : Env ℝ) [MeasurableSpace e.r.G] (μ : Measure e.r.G) (hs : IdealSource e.r μ)
    (A : Matrix (Fin m) (Fin n) ℝ) (b : Fin m → ℝ) (k seed : Int) (hk : w.isSparse = true → 1 ≤ k ∧ k ≤ n)
    (hfol : ∀ niter burnin thin : Int,
      ∀ᵐ g ∂μ, Follows w e (callArgs A b x niter k burnin thin seed) ⟨rfl, rfl⟩ (posAt (mhNext e.r n C P acc) x) g) :
    MeanConverges w e μ A b x k seed φ (average (mhTarget C l c) φ) := by
  have hN : IsProbabilityMeasure (stdNormal n) := inferInstance
  have := h.prob
  have := hs.prob
  have mT := measurable_mhMove h.measC h.measP h.measa
  have mf := measurable_mhNext e.r n (hs.gaussian n).measurable hs.uniform.measurable h.measC h.measP h.measa
  have hc : ∫ y, clampTo M φ y ∂(mhProb C l c) = average (mhTarget C l c) φ / M := by
    rw [← h.prob_average, ← integral_div]
    exact integral_congr_ae (h.prob_ae.mono fun y hy => clampTo_eq hM (hφM y hy))
  have hK : ∀ᵐ g ∂μ, ∀ t, posAt (mhNext e.r n C P acc) x t g ∈ V := by
    have := ae_all_iff.2 fun t => h.good hs t x hx
    filter_upwards [this] with g hg t using (hg t _ rfl).1
  refine MeanConverges.of_follows (q := posAt (mhNext e.r n C P acc) x) hk hfol fun τ hτ => ?_
  filter_upwards [strong_law mT mf (h.drives hs) h.prob_ae (fun y hy ε hε => h.converge hy hε) (clampTo_bdd M hφ) hx hτ, hK] with g hg hgK s
  have h1 := hg s
  rw [hc] at h1
  exact tendsto_clamp hM hφM (fun i => hgK (s + i * τ)) h1

end

section
variable {n m : ℕ} {W : Type} [MeasurableSpace W] {P : Measure (Fin n → ℝ)} {ν : Measure W} [IsProbabilityMeasure ν]
  {T : (Fin n → ℝ) → W → Fin n → ℝ} {K : Set (Fin n → ℝ)} {β : ℝ} {n₀ : ℕ} (h : Mixes P ν T K β n₀)
include h

theorem Mixes.strong {x : Fin n → ℝ} (hx : x ∈ K) {φ : (Fin n → ℝ) → ℝ} (hφ : Measurable φ) {M : ℝ} (hM : 0 < M)
    (hφM : ∀ y ∈ K, |φ y| ≤ M) (w : Walk ℝ) (e : Env ℝ) [MeasurableSpace e.r.G]
    (μ : Measure e.r.G) [IsProbabilityMeasure μ] {f : (Fin n → ℝ) → e.r.G → (Fin n → ℝ) × e.r.G}
    (mf : Measurable fun p : (Fin n → ℝ) × e.r.G => f p.1 p.2) (hd : Drives μ ν f T) (hK : ∀ᵐ g ∂μ, ∀ t, posAt f x t g ∈ K)
    (A : Matrix (Fin m) (Fin n) ℝ) (b : Fin m → ℝ) (k seed : Int) (hk : w.isSparse = true → 1 ≤ k ∧ k ≤ n)
    (hfol : ∀ niter burnin thin : Int, ∀ᵐ g ∂μ, Follows w e (callArgs A b x niter k burnin thin seed) ⟨rfl, rfl⟩ (posAt f x) g) :
    MeanConverges w e μ A b x k seed φ (∫ y, φ y ∂P) := by
  have := h.prob
  have hr : ∀ y ∈ K, ∀ ε > 0, ∃ N : ℕ, ∀ t ≥ N, ∀ f : (Fin n → ℝ) → ℝ, Bdd 1 f → |(avg ν T)^[t] f y - ∫ y, f y ∂P| ≤ ε := by
    intro y hy ε hε
    obtain ⟨N, hN⟩ := rate_small h.pos h.le h.len_pos 2 hε
    refine ⟨N, fun t ht f hf => ?_⟩
    have := h.rate hf (lo := -1) (hi := 1) (fun z _ => (abs_le.1 (hf.le z)).1) (fun z _ => (abs_le.1 (hf.le z)).2) t hy
    norm_num at this
    exact this.trans (hN t ht)
  have hc : ∫ y, clampTo M φ y ∂P = (∫ y, φ y ∂P) / M := by
    rw [← integral_div]
    exact integral_congr_ae (h.ae.mono fun y hy => clampTo_eq hM (hφM y hy))
  refine MeanConverges.of_follows (q := posAt f x) hk hfol fun τ hτ => ?_
  filter_upwards [strong_law h.meas mf hd h.ae hr (clampTo_bdd M hφ) hx hτ, hK] with g hg hgK s
  have h1 := hg s
  rw [hc] at h1
  exact tendsto_clamp hM hφM (fun i => hgK (s + i * τ)) h1

end

theorem posAt_keep {X G : Type} {f : X → G → X × G} {K : Set X} (hKf : ∀ x ∈ K, ∀ g, (f x g).1 ∈ K) {x : X} (hx : x ∈ K) (g : G) (t : ℕ) :
    posAt f x t g ∈ K := by
  unfold posAt
  induction t with
  | zero => exact hx
  | succ t ih => rw [Function.iterate_succ_apply']; exact hKf _ ih _

/-! ## Walks that draw a normal vector and a uniform number per iteration -/

section
variable {n : ℕ} {next : (Fin n → ℝ) → (Fin n → ℝ) → ℝ → Fin n → ℝ} (hn : Measurable fun p : (Fin n → ℝ) × (Fin n → ℝ) × ℝ => next p.1 p.2.1 p.2.2)
include hn

/-- The limit law. -/
theorem draw_limit {K : Set (Fin n → ℝ)} (mK : MeasurableSet K) (hstay : ∀ x ∈ K, ∀ᵐ v ∂(stdNormal n), ∀ val ∈ Icc (0 : ℝ) 1, next x v val ∈ K)
    {m : Measure (Fin n → ℝ)} (hmK : ∀ᵐ x ∂m, x ∈ K)
    (hm : ∀ x ∈ K, ∀ F : (Fin n → ℝ) → ℝ≥0∞, Measurable F → ∫⁻ y, F y ∂m ≤ ∫⁻ v, ∫⁻ val, F (next x v val) ∂unitLaw ∂(stdNormal n))
    (hm1 : m univ ≤ 1) (hm0 : m univ ≠ 0) : ∃ P, Mixes P ((stdNormal n).prod unitLaw) (drawStep next) K (m univ).toReal 1 := by
  refine mixes_limit (measurable_drawStep hn) mK (fun x hx => ?_) hmK (fun x hx F hF => ?_) hm1 hm0
  · refine (Measure.ae_prod_iff_ae_ae (p := fun q : (Fin n → ℝ) × ℝ => next x q.1 q.2 ∈ K)
      ((hn.comp measurable_prodMk_left) mK)).2 ?_
    filter_upwards [hstay x hx] with v hv
    filter_upwards [ae_restrict_mem measurableSet_Icc] with val hval using hv val hval
  · refine (hm x hx F hF).trans (le_of_eq ?_)
    have m2 : Measurable fun w : (Fin n → ℝ) × ℝ => next x w.1 w.2 := hn.comp measurable_prodMk_left
    exact (lintegral_prod (fun w : (Fin n → ℝ) × ℝ => F (next x w.1 w.2)) (hF.comp m2).aemeasurable).symm

variable {P : Measure (Fin n → ℝ)} {K : Set (Fin n → ℝ)} {β : ℝ} (h : Mixes P ((stdNormal n).prod unitLaw) (drawStep next) K β 1)
include h

/-- If the law is nearly `π` at late times, so is the limit law. -/
theorem limit_close {π : Measure (Fin n → ℝ)} {x : Fin n → ℝ} (hx : x ∈ K) {β' η : ℝ} (hβ : 0 < β') (hβ1 : β' ≤ 1)
    (hmix : ∀ F : (Fin n → ℝ) → ℝ≥0∞, Measurable F → (∀ y, F y ≤ 1) → ∀ t,
      |(afterSteps (stdNormal n) next F t x).toReal - (∫⁻ y, F y ∂π).toReal / (π univ).toReal| ≤ (1 - β') ^ t + η)
    {u : (Fin n → ℝ) → ℝ} (hu : Unit01 u) : |∫ y, u y ∂P - (∫ y, u y ∂π) / (π univ).toReal| ≤ η := by
  have hp := h.prob
  refine le_of_forall_pos_le_add fun ε hε => ?_
  obtain ⟨N, hN⟩ := rate_small h.pos h.le h.len_pos 1 (half_pos hε)
  obtain ⟨N', hN'⟩ := rate_small hβ hβ1 one_pos 1 (half_pos hε)
  have h1 := hN (max N N') (le_max_left _ _)
  have h2 := hN' (max N N') (le_max_right _ _)
  rw [mul_one] at h1 h2
  rw [Nat.div_one] at h2
  have h3 := h.rate hu.bdd (lo := 0) (hi := 1) (fun y _ => hu.nonneg y) (fun y _ => hu.le_one y) (max N N') hx
  rw [sub_zero, mul_one] at h3
  have h4 := hmix (fun y => ENNReal.ofReal (u y)) hu.meas.ennreal_ofReal (fun y => ENNReal.ofReal_le_one.2 (hu.le_one y)) (max N N')
  rw [← avg_afterSteps hn hu _ x,
    ENNReal.toReal_ofReal ((hu.avgIter (ν := (stdNormal n).prod unitLaw) (measurable_drawStep hn) _).nonneg x),
    ← integral_eq_lintegral_of_nonneg_ae (ae_of_all _ hu.nonneg) hu.meas.aestronglyMeasurable] at h4
  have h5 := abs_sub_le (∫ y, u y ∂P) ((avg ((stdNormal n).prod unitLaw) (drawStep next))^[max N N'] u x) ((∫ y, u y ∂π) / (π univ).toReal)
  rw [abs_sub_comm (∫ y, u y ∂P) ((avg ((stdNormal n).prod unitLaw) (drawStep next))^[max N N'] u x)] at h5
  refine h5.trans ((add_le_add (h3.trans h1) (h4.trans (add_le_add h2 le_rfl))).trans (le_of_eq ?_))
  ring

/-- The same for the means of bounded functions. -/
theorem limit_mean {π : Measure (Fin n → ℝ)} [IsFiniteMeasure π] (hπ0 : π univ ≠ 0) (hπK : ∀ᵐ y ∂π, y ∈ K) {x : Fin n → ℝ} (hx : x ∈ K) {β' η : ℝ}
    (hβ : 0 < β') (hβ1 : β' ≤ 1)
    (hmix : ∀ F : (Fin n → ℝ) → ℝ≥0∞, Measurable F → (∀ y, F y ≤ 1) → ∀ t,
      |(afterSteps (stdNormal n) next F t x).toReal - (∫⁻ y, F y ∂π).toReal / (π univ).toReal| ≤ (1 - β') ^ t + η)
    {φ : (Fin n → ℝ) → ℝ} (hφ : Measurable φ) {M : ℝ} (hM : 0 < M) (hφM : ∀ y ∈ K, |φ y| ≤ M) : |∫ y, φ y ∂P - average π φ| ≤ 2 * M * η := by
  have hp := h.prob
  have hZ : 0 < (π univ).toReal := ENNReal.toReal_pos hπ0 (measure_ne_top _ _)
  have b := clampTo_bdd M hφ
  set u : (Fin n → ℝ) → ℝ := fun y => (clampTo M φ y + 1) / 2 with hu
  have uu : Unit01 u := ⟨(b.meas.add_const 1).div_const 2, fun y => by
    have := (abs_le.1 (b.le y)).1
    simp only [hu]; linarith, fun y => by
    have := (abs_le.1 (b.le y)).2
    simp only [hu]; linarith⟩
  have h1 := limit_close hn h hx hβ hβ1 hmix uu
  have e1 : ∫ y, u y ∂P = ((∫ y, φ y ∂P) / M + 1) / 2 := by
    have : ∫ y, clampTo M φ y ∂P = (∫ y, φ y ∂P) / M := by
      rw [← integral_div]
      exact integral_congr_ae (h.ae.mono fun y hy => clampTo_eq hM (hφM y hy))
    simp only [hu]
    rw [integral_div, integral_add (b.int _) (integrable_const _), this, integral_const]
    simp
  have e2 : (∫ y, u y ∂π) / (π univ).toReal = (average π φ / M + 1) / 2 := by
    have : ∫ y, clampTo M φ y ∂π = (∫ y, φ y ∂π) / M := by
      rw [← integral_div]
      exact integral_congr_ae (hπK.mono fun y hy => clampTo_eq hM (hφM y hy))
    simp only [hu]
    rw [integral_div, integral_add (b.int _) (integrable_const _), this, integral_const, average]
    show ((_ / M) + (π univ).toReal • 1) / 2 / _ = _
    rw [smul_eq_mul, mul_one]
    field_simp
  rw [e1, e2] at h1
  have e3 : ((∫ y, φ y ∂P) / M + 1) / 2 - (average π φ / M + 1) / 2 = ((∫ y, φ y ∂P) - average π φ) / (2 * M) := by
    field_simp
    ring
  rw [e3, abs_div, abs_of_pos (by positivity : 0 < 2 * M), div_le_iff₀ (by positivity)] at h1
  refine h1.trans (le_of_eq ?_)
  ring

end

end PW
