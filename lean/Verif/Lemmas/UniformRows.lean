import Verif.Lemmas.UniformErgodic
import Verif.Lemmas.WalkErgodic

/-! # From geometric convergence of the chain to the rows a call returns -/

namespace PW
open MeasureTheory Set Filter Topology
open scoped ENNReal

/-- The chain of `T` converges to `P` geometrically, uniformly over the starting points in `K`. -/
structure Mixes {X W : Type} [MeasurableSpace X] [MeasurableSpace W] (P : Measure X) (ν : Measure W) (T : X → W → X) (K : Set X) (β : ℝ)
    (n₀ : ℕ) : Prop where
  meas : Measurable fun p : X × W => T p.1 p.2
  keep : ∀ x ∈ K, ∀ᵐ w ∂ν, T x w ∈ K
  ae : ∀ᵐ x ∂P, x ∈ K
  prob : IsProbabilityMeasure P
  pos : 0 < β
  le : β ≤ 1
  len_pos : 0 < n₀
  rate : ∀ {M : ℝ} {f : X → ℝ}, Bdd M f → ∀ {lo hi : ℝ}, (∀ x ∈ K, lo ≤ f x) → (∀ x ∈ K, f x ≤ hi) → ∀ (t : ℕ) {x : X}, x ∈ K →
    |(avg ν T)^[t] f x - ∫ y, f y ∂P| ≤ (1 - β) ^ (t / n₀) * (hi - lo)

section
variable {X W : Type} [MeasurableSpace X] [MeasurableSpace W] {P : Measure X} {ν : Measure W} [IsProbabilityMeasure ν] {T : X → W → X}

theorem stepE_one (n : ℕ) (x : X) : (stepE ν T)^[n] (fun _ => 1) x = 1 := by
  induction n generalizing x with
  | zero => rfl
  | succ n ih =>
    rw [Function.iterate_succ_apply']
    show ∫⁻ w, _ ∂ν = 1
    simp only [ih, lintegral_const, measure_univ, mul_one]

/-- A minorisation and detailed balance give geometric convergence. -/
theorem mixes_of_minor [IsProbabilityMeasure P] (hT : Measurable fun p : X × W => T p.1 p.2) {K : Set X} (hK' : ∀ x ∈ K, ∀ w, T x w ∈ K)
    (hPK : ∀ᵐ x ∂P, x ∈ K) (hb : Balance P ν T) {n₀ : ℕ} (hn₀ : 0 < n₀) {m : Measure X} (hm0 : m univ ≠ 0) (hmK : ∀ᵐ x ∂m, x ∈ K)
    (hm : ∀ x ∈ K, ∀ F : X → ℝ≥0∞, Measurable F → ∫⁻ y, F y ∂m ≤ (stepE ν T)^[n₀] F x) :
    ∃ β, Mixes P ν T K β n₀ := by
  have hK : ∀ x ∈ K, ∀ᵐ w ∂ν, T x w ∈ K := fun x hx => ae_of_all _ (hK' x hx)
  have hne : ∃ x, x ∈ K := by
    by_contra h
    push Not at h
    have h1 : P univ = 0 := by
      rw [ae_iff] at hPK
      rw [← hPK]; congr 1; ext x; simpa using h x
    rw [measure_univ] at h1
    exact one_ne_zero h1
  obtain ⟨x₀, hx₀⟩ := hne
  have hle : m univ ≤ 1 := by
    have := hm x₀ hx₀ (fun _ => 1) measurable_const
    rw [stepE_one] at this
    simpa using this
  have hfin : IsFiniteMeasure m := ⟨lt_of_le_of_lt hle ENNReal.one_lt_top⟩
  refine ⟨(m univ).toReal, hT, hK, hPK, inferInstance, ENNReal.toReal_pos hm0 hfin.measure_univ_lt_top.ne, ?_, hn₀, ?_⟩
  · exact (ENNReal.toReal_mono ENNReal.one_ne_top hle).trans (by simp)
  · intro M f hf lo hi hlo hhi t x hx
    exact uniform_converge hT hK hmK hm rfl hPK hn₀ hf (fun t => integral_avgIter hT hb hf t) hlo hhi t hx

theorem rate_small {β : ℝ} (hβ : 0 < β) (hβ1 : β ≤ 1) {n₀ : ℕ} (hn₀ : 0 < n₀) (C : ℝ) {ε : ℝ} (hε : 0 < ε) :
    ∃ N : ℕ, ∀ t ≥ N, (1 - β) ^ (t / n₀) * C ≤ ε := by
  have h1 : Tendsto (fun k : ℕ => (1 - β) ^ k * C) atTop (𝓝 (0 * C)) :=
    (tendsto_pow_atTop_nhds_zero_of_lt_one (by linarith) (by linarith)).mul_const C
  rw [zero_mul] at h1
  obtain ⟨N, hN⟩ := (eventually_atTop.1 (h1.eventually (ge_mem_nhds hε)))
  refine ⟨N * n₀, fun t ht => hN _ ?_⟩
  exact (Nat.le_div_iff_mul_le hn₀).2 ht

end

section
variable {n m : ℕ} {W : Type} [MeasurableSpace W] {P : Measure (Fin n → ℝ)} {ν : Measure W} [IsProbabilityMeasure ν]
  {T : (Fin n → ℝ) → W → Fin n → ℝ} {K : Set (Fin n → ℝ)} {β : ℝ} {n₀ : ℕ} (h : Mixes P ν T K β n₀)
include h

/-- Rows. -/
theorem Mixes.rows {w : Walk ℝ} {e : Env ℝ} [MeasurableSpace e.r.G] {μ : Measure e.r.G} [IsProbabilityMeasure μ]
    {f : (Fin n → ℝ) → e.r.G → (Fin n → ℝ) × e.r.G} (mf : Measurable fun p : (Fin n → ℝ) × e.r.G => f p.1 p.2) (hd : Drives μ ν f T)
    {A : Matrix (Fin m) (Fin n) ℝ} {b : Fin m → ℝ} {x : Fin n → ℝ} (hx : x ∈ K) {k seed : Int} (hk : w.isSparse = true → 1 ≤ k ∧ k ≤ n)
    (hfol : ∀ niter burnin thin : Int, ∀ᵐ g ∂μ, Follows w e (callArgs A b x niter k burnin thin seed) ⟨rfl, rfl⟩ (posAt f x) g)
    {π : Measure (Fin n → ℝ)} (hπ : ∀ S, (P S).toReal = share π S) (t : ℕ) :
    LawWithin w e μ A b x k seed π t ((1 - β) ^ (t / n₀)) := by
  refine LawWithin.of_follows (q := posAt f x) hk hfol fun S hS => ?_
  have bS : Bdd 1 (S.indicator (1 : (Fin n → ℝ) → ℝ)) := ⟨measurable_one.indicator hS, fun y => by
    by_cases hy : y ∈ S
    · rw [indicator_of_mem hy]; simp
    · rw [indicator_of_notMem hy]; simp⟩
  rw [← hπ S]
  have h1 := markov_pos mf h.meas hd bS t x
  have h2 := h.rate bS (lo := 0) (hi := 1) (fun y _ => indicator_nonneg (fun _ _ => zero_le_one) y)
    (fun y _ => (le_abs_self _).trans (bS.le y)) t hx
  rw [← h1, integral_indicator_one hS, sub_zero, mul_one] at h2
  have h3 : ∫ g, S.indicator (1 : (Fin n → ℝ) → ℝ) (posAt f x t g) ∂μ = (μ {g | posAt f x t g ∈ S}).toReal := by
    have h4 := integral_indicator_one (μ := μ) ((measurable_posAt mf x t) hS)
    exact h4
  rw [h3] at h2
  exact h2

/-- Averages. -/
theorem Mixes.averages {x : Fin n → ℝ} (hx : x ∈ K) {φ : (Fin n → ℝ) → ℝ} (hφ : Measurable φ) {M : ℝ} (hM : 0 < M)
    (hφM : ∀ y ∈ K, |φ y| ≤ M) {ε δ : ℝ} (hε : 0 < ε) (hδ : 0 < δ) : ∃ L₀ : ℕ, ∀ (w : Walk ℝ) (e : Env ℝ) [MeasurableSpace e.r.G]
    (μ : Measure e.r.G) [IsProbabilityMeasure μ] (f : (Fin n → ℝ) → e.r.G → (Fin n → ℝ) × e.r.G),
    (Measurable fun p : (Fin n → ℝ) × e.r.G => f p.1 p.2) → Drives μ ν f T → (∀ x ∈ K, ∀ g, (f x g).1 ∈ K) →
    ∀ (A : Matrix (Fin m) (Fin n) ℝ) (b : Fin m → ℝ) (k seed : Int), (w.isSparse = true → 1 ≤ k ∧ k ≤ n) →
    (∀ niter burnin thin : Int, ∀ᵐ g ∂μ, Follows w e (callArgs A b x niter k burnin thin seed) ⟨rfl, rfl⟩ (posAt f x) g) →
    ∀ L ≥ L₀, MeanWithin w e μ A b x k seed φ (∫ y, φ y ∂P) L ε δ := by
  have := h.prob
  have bφ : Bdd 1 (clampTo M φ) := clampTo_bdd M hφ
  have hr : ∀ f : (Fin n → ℝ) → ℝ, Bdd 1 f → ∀ t, ∀ y ∈ K, |(avg ν T)^[t] f y - ∫ y, f y ∂P| ≤ (1 - β) ^ (t / n₀) * 2 := by
    intro f hf t y hy
    have := h.rate hf (lo := -1) (hi := 1) (fun z _ => (abs_le.1 (hf.le z)).1) (fun z _ => (abs_le.1 (hf.le z)).2) t hy
    norm_num at this
    exact this
  have hl1 : Tendsto (fun n => ∫ x, |(avg ν T)^[n] (clampTo M φ) x - ∫ y, clampTo M φ y ∂P| ∂P) atTop (𝓝 0) := by
    rw [Metric.tendsto_atTop]
    intro ε hε
    obtain ⟨N, hN⟩ := rate_small h.pos h.le h.len_pos 2 (half_pos hε)
    refine ⟨N, fun t ht => ?_⟩
    rw [Real.dist_eq, sub_zero, abs_of_nonneg (integral_nonneg fun _ => abs_nonneg _)]
    refine lt_of_le_of_lt ?_ (half_lt_self hε)
    have := norm_integral_le_of_norm_le_const (μ := P) (f := fun x => |(avg ν T)^[t] (clampTo M φ) x - ∫ y, clampTo M φ y ∂P|) (C := ε / 2)
      (h.ae.mono fun y hy => by rw [Real.norm_eq_abs, abs_abs]; exact (hr _ bφ t y hy).trans (hN t ht))
    rw [Real.norm_eq_abs, abs_of_nonneg (integral_nonneg fun _ => abs_nonneg _)] at this
    simpa using this
  obtain ⟨L₀, hL₀, hmse⟩ := mean_square h.meas (x := x) (fun ε hε => by
    obtain ⟨N, hN⟩ := rate_small h.pos h.le h.len_pos 2 hε
    exact ⟨N, fun t ht f hf => (hr f hf t x hx).trans (hN t ht)⟩) bφ hl1 (ε := δ * ε ^ 2 / M ^ 2) (by positivity)
  refine ⟨L₀, fun w e _ μ _ f mf hd hKf A b k seed hk hfol L hL => MeanWithin.of_follows (q := posAt f x) hk hfol fun B τ hτ => ?_⟩
  have hc : ∫ y, clampTo M φ y ∂P = (∫ y, φ y ∂P) / M := by
    rw [← integral_div]
    exact integral_congr_ae (h.ae.mono fun y hy => clampTo_eq hM (hφM y hy))
  have hK : ∀ᵐ g ∂μ, ∀ t, posAt f x t g ∈ K := ae_of_all _ fun g t => by
    unfold posAt
    induction t with
    | zero => exact hx
    | succ t ih => rw [Function.iterate_succ_apply']; exact hKf _ ih _
  have h1 := hmse μ f mf hd L hL (B + τ) τ hτ
  rw [hc] at h1
  have ht : ∀ i, B + τ + i * τ = B + (i + 1) * τ := fun i => by ring
  simp only [ht] at h1
  have h2 := markov_close (fun t => measurable_posAt mf x t) hK (hL₀.trans hL) (fun i => B + (i + 1) * τ) (φ := φ) bφ.meas bφ.le
    (c := ∫ y, φ y ∂P) hM (fun y hy => by rw [clampTo_eq hM (hφM y hy), sub_div, sub_add_cancel]) hε h1
  have h3 : M ^ 2 / ε ^ 2 * (δ * ε ^ 2 / M ^ 2) = δ := by field_simp
  rw [h3] at h2
  exact h2

end

end PW
