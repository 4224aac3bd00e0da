import Verif.Lemmas.Birkhoff
import Verif.Lemmas.ErgodicMean

/-! # Averages along a chain converge almost surely -/

namespace PW
open MeasureTheory Set Filter Topology
open scoped ENNReal

variable {X W G : Type} [MeasurableSpace X] [MeasurableSpace W] [MeasurableSpace G]
  {P : Measure X} [IsProbabilityMeasure P] {ν : Measure W} [IsProbabilityMeasure ν] {T : X → W → X}
  (hT : Measurable fun p : X × W => T p.1 p.2)
  {μ : Measure G} [IsProbabilityMeasure μ] {f : X → G → X × G} (hf : Measurable fun p : X × G => f p.1 p.2) (hd : Drives μ ν f T)

section
include hT hf hd

/-- An iteration, with its generator, preserves the product of an invariant law and the law of the generator. -/
theorem step_preserves (hinv : ∀ h : X → ℝ, Bdd 1 h → ∫ x, avg ν T h x ∂P = ∫ x, h x ∂P) :
    MeasurePreserving (fun p : X × G => f p.1 p.2) (P.prod μ) (P.prod μ) := by
  refine ⟨hf, ?_⟩
  have hpr : IsProbabilityMeasure ((P.prod μ).map fun p : X × G => f p.1 p.2) := Measure.isProbabilityMeasure_map hf.aemeasurable
  refine Measure.ext fun S hS => ?_
  set Φ : X × G → ℝ := S.indicator 1 with hΦ
  have bΦ : Bdd 1 Φ := ⟨measurable_one.indicator hS, fun p => by
    by_cases hp : p ∈ S
    · rw [hΦ, indicator_of_mem hp]; simp
    · rw [hΦ, indicator_of_notMem hp]; simp⟩
  set q : X → ℝ := fun y => ∫ g, Φ (y, g) ∂μ with hq
  have bq : Bdd 1 q := ⟨bΦ.meas.stronglyMeasurable.integral_prod_right'.measurable, fun y => by
    have := norm_integral_le_of_norm_le_const (μ := μ) (f := fun g => Φ (y, g)) (C := 1) (ae_of_all _ fun g => bΦ.le _)
    simpa using this⟩
  have e1 : ((P.prod μ).map fun p : X × G => f p.1 p.2).real S = ∫ p, Φ (f p.1 p.2) ∂(P.prod μ) := by
    rw [← integral_indicator_one hS]
    exact integral_map hf.aemeasurable bΦ.meas.aestronglyMeasurable
  have e2 : (P.prod μ).real S = ∫ p, Φ p ∂(P.prod μ) := (integral_indicator_one hS).symm
  have h1 : ((P.prod μ).map fun p : X × G => f p.1 p.2).real S = (P.prod μ).real S := by
    rw [e1, e2, integral_prod _ ((bΦ.comp hf).int _), integral_prod _ (bΦ.int _), ← hinv q bq]
    refine integral_congr_ae (ae_of_all _ fun x => ?_)
    exact drives_real hf hT hd bΦ x
  exact (measureReal_eq_measureReal_iff (measure_ne_top _ _) (measure_ne_top _ _)).1 h1

end

section
variable {φ : X → ℝ} {c : ℝ}

/-- Averages over every `τ`-th position. -/
noncomputable def chainMean (f : X → G → X × G) (φ : X → ℝ) (τ L : ℕ) (p : X × G) : ℝ :=
  (∑ i ∈ Finset.range L, φ ((fun p : X × G => f p.1 p.2)^[i * τ] p).1) / L

omit [MeasurableSpace X] [MeasurableSpace G] in
theorem chainMean_orbit (τ L : ℕ) (hL : 1 ≤ L) (p : X × G) :
    orbitSum ((fun p : X × G => f p.1 p.2)^[τ]) (fun p : X × G => φ p.1 - c) L p / L = chainMean f φ τ L p - c := by
  have hLr : (L : ℝ) ≠ 0 := by
    have : L ≠ 0 := by omega
    exact_mod_cast this
  unfold orbitSum chainMean
  have e : ∀ i, ((fun p : X × G => f p.1 p.2)^[τ])^[i] p = (fun p : X × G => f p.1 p.2)^[i * τ] p := fun i => by
    rw [mul_comm, Function.iterate_mul]
  simp only [e]
  rw [Finset.sum_sub_distrib, Finset.sum_const, Finset.card_range, nsmul_eq_mul, sub_div, mul_div_cancel_left₀ _ hLr]

omit [MeasurableSpace X] [MeasurableSpace G] in
theorem chainMean_tendsto (τ : ℕ) (p : X × G) :
    Tendsto (fun L : ℕ => orbitSum ((fun p : X × G => f p.1 p.2)^[τ]) (fun p : X × G => φ p.1 - c) L p / L) atTop (𝓝 0) ↔
      Tendsto (fun L => chainMean f φ τ L p) atTop (𝓝 c) := by
  have h1 : ∀ᶠ L : ℕ in atTop, orbitSum ((fun p : X × G => f p.1 p.2)^[τ]) (fun p : X × G => φ p.1 - c) L p / L = chainMean f φ τ L p - c :=
    eventually_atTop.2 ⟨1, fun L hL => chainMean_orbit τ L hL p⟩
  rw [tendsto_congr' h1]
  constructor
  · intro h
    have := h.add_const c
    rw [zero_add] at this
    exact this.congr fun L => by ring
  · intro h
    have := h.sub_const c
    rwa [sub_self] at this

omit [MeasurableSpace G] in
/-- Dropping the first position changes nothing in the limit. -/
theorem chainMean_shift {M : ℝ} (hφ : Bdd M φ) (τ : ℕ) (p : X × G)
    (h : Tendsto (fun L => chainMean f φ τ L ((fun p : X × G => f p.1 p.2)^[τ] p)) atTop (𝓝 c)) :
    Tendsto (fun L => chainMean f φ τ L p) atTop (𝓝 c) := by
  have hM : 0 ≤ M := (abs_nonneg _).trans (hφ.le p.1)
  have h1 : Tendsto (fun L : ℕ => 2 * M / L) atTop (𝓝 0) := tendsto_const_nhds.div_atTop tendsto_natCast_atTop_atTop
  have h2 : Tendsto (fun L => chainMean f φ τ L p - chainMean f φ τ L ((fun p : X × G => f p.1 p.2)^[τ] p)) atTop (𝓝 0) := by
    refine squeeze_zero_norm (fun L => ?_) h1
    unfold chainMean
    have e : ∀ i, (fun p : X × G => f p.1 p.2)^[i * τ] ((fun p : X × G => f p.1 p.2)^[τ] p) = (fun p : X × G => f p.1 p.2)^[(i + 1) * τ] p :=
      fun i => by rw [← Function.iterate_add_apply]; congr 2; ring
    simp only [e]
    rw [← sub_div, Real.norm_eq_abs, abs_div, Nat.abs_cast]
    refine div_le_div_of_nonneg_right ?_ (Nat.cast_nonneg L)
    rw [← Finset.sum_sub_distrib, Finset.sum_range_sub' (fun i => φ ((fun p : X × G => f p.1 p.2)^[i * τ] p).1)]
    refine (abs_sub _ _).trans ?_
    linarith [hφ.le ((fun p : X × G => f p.1 p.2)^[0 * τ] p).1, hφ.le ((fun p : X × G => f p.1 p.2)^[L * τ] p).1]
  have := h2.add h
  rw [zero_add] at this
  exact this.congr fun L => by ring

end

section
include hT hf hd

/-- **Strong law of large numbers.** If the chain converges to `P` from every point of `V`, averages along it converge almost surely. -/
theorem strong_law {V : Set X} (hV : ∀ᵐ x ∂P, x ∈ V)
    (hpt : ∀ x ∈ V, ∀ ε > 0, ∃ N : ℕ, ∀ n ≥ N, ∀ h : X → ℝ, Bdd 1 h → |(avg ν T)^[n] h x - ∫ y, h y ∂P| ≤ ε)
    {φ : X → ℝ} (hφ : Bdd 1 φ) {x : X} (hx : x ∈ V)
    {τ : ℕ} (hτ : 1 ≤ τ) :
    ∀ᵐ g ∂μ, ∀ s : ℕ, Tendsto (fun L : ℕ => (∑ i ∈ Finset.range L, φ (posAt f x (s + i * τ) g)) / L) atTop (𝓝 (∫ y, φ y ∂P)) := by
  set c := ∫ y, φ y ∂P with hc
  set S : X × G → X × G := fun p => f p.1 p.2 with hS
  have hc1 : |c| ≤ 1 := by
    have := norm_integral_le_of_norm_le_const (μ := P) (f := φ) (C := 1) (ae_of_all _ fun w => hφ.le _)
    rw [Real.norm_eq_abs] at this
    simpa using this
  have hlim : ∀ y ∈ V, ∀ h : X → ℝ, Bdd 1 h → Tendsto (fun n => (avg ν T)^[n] h y) atTop (𝓝 (∫ y, h y ∂P)) := by
    intro y hy h hh
    rw [Metric.tendsto_atTop]
    intro ε hε
    obtain ⟨N, hN⟩ := hpt y hy (ε / 2) (half_pos hε)
    exact ⟨N, fun n hn => lt_of_le_of_lt (hN n hn h hh) (half_lt_self hε)⟩
  have hinv : ∀ h : X → ℝ, Bdd 1 h → ∫ x, avg ν T h x ∂P = ∫ x, h x ∂P := by
    intro h hh
    have h1 := hlim x hx (avg ν T h) (hh.avgIter hT 1)
    have h2 := (tendsto_add_atTop_iff_nat 1).2 (hlim x hx h hh)
    exact tendsto_nhds_unique h1 h2
  have hpres : MeasurePreserving S (P.prod μ) (P.prod μ) := step_preserves hT hf hd hinv
  have hl1 : Tendsto (fun n => ∫ x, |(avg ν T)^[n] φ x - ∫ y, φ y ∂P| ∂P) atTop (𝓝 0) := by
    have bn : ∀ n, Bdd 2 fun x => (avg ν T)^[n] φ x - c := fun n => by
      have := (hφ.avgIter (ν := ν) hT n).sub (Bdd.const (X := X) c)
      exact ⟨this.meas, fun y => (this.le y).trans (by linarith)⟩
    have := tendsto_integral_of_dominated_convergence (μ := P) (F := fun n y => |(avg ν T)^[n] φ y - c|) (f := fun _ => 0)
      (fun _ => 2) (fun n => (continuous_abs.measurable.comp (bn n).meas).aestronglyMeasurable) (integrable_const _)
      (fun n => ae_of_all _ fun y => by rw [Real.norm_eq_abs, abs_abs]; exact (bn n).le y) (hV.mono fun y hy => by
        have h1 := ((hlim y hy φ hφ).sub_const c).abs
        rwa [sub_self, abs_zero] at h1)
    simpa using this
  have mm : ∀ L, Measurable (chainMean f φ τ L) := fun L =>
    (Finset.measurable_fun_sum _ fun i _ => hφ.meas.comp (measurable_fst.comp (hf.iterate _))).div_const _
  have bψ : Bdd (1 + 1) fun p : X × G => φ p.1 - c := by
    have := (hφ.comp (measurable_fst (α := X) (β := G))).sub (Bdd.const c)
    exact ⟨this.meas, fun p => (this.le p).trans (by linarith)⟩
  have hbm : ∀ L p, |chainMean f φ τ L p - c| ≤ 2 := by
    intro L p
    have h1 : |chainMean f φ τ L p| ≤ 1 := by
      unfold chainMean
      rw [abs_div, Nat.abs_cast]
      refine div_le_one_of_le₀ ?_ (Nat.cast_nonneg L)
      refine (Finset.abs_sum_le_sum_abs _ _).trans ((Finset.sum_le_sum fun i _ => hφ.le _).trans (le_of_eq ?_))
      rw [Finset.sum_const, Finset.card_range, nsmul_eq_mul, mul_one]
    exact (abs_sub _ _).trans (by linarith)
  -- convergence in mean
  have hmean : ∀ y ∈ V, Tendsto (fun L => ∫ g, |chainMean f φ τ L (y, g) - c| ∂μ) atTop (𝓝 0) := by
    intro y hy
    rw [Metric.tendsto_atTop]
    intro ε hε
    obtain ⟨L₀, -, hL₀⟩ := mean_square hT (x := y) (hpt y hy) hφ hl1 (ε := (ε / 2) ^ 2) (by positivity)
    refine ⟨L₀, fun L hL => ?_⟩
    rw [Real.dist_eq, sub_zero, abs_of_nonneg (integral_nonneg fun _ => abs_nonneg _)]
    have h1 := hL₀ μ f hf hd L hL 0 τ hτ
    have e : ∀ g, (∑ i ∈ Finset.range L, φ (posAt f y (0 + i * τ) g)) / L = chainMean f φ τ L (y, g) := fun g => by
      simp only [zero_add]; rfl
    simp only [e] at h1
    have my : Measurable fun g => chainMean f φ τ L (y, g) - c := ((mm L).comp measurable_prodMk_left).sub_const c
    have b1 : Bdd 2 fun g => chainMean f φ τ L (y, g) - c := ⟨my, fun g => hbm L _⟩
    have b2 : Bdd (2 * 2) fun g => (chainMean f φ τ L (y, g) - c) * (chainMean f φ τ L (y, g) - c) := b1.mul b1
    have h2 : ∫ g, |chainMean f φ τ L (y, g) - c| ∂μ ≤
        ∫ g, (ε / 4 + ((chainMean f φ τ L (y, g) - c) * (chainMean f φ τ L (y, g) - c)) / ε) ∂μ := by
      refine integral_mono (b1.int μ).abs ((integrable_const _).add ((b2.int μ).div_const ε)) fun g => ?_
      show |chainMean f φ τ L (y, g) - c| ≤ ε / 4 + ((chainMean f φ τ L (y, g) - c) * (chainMean f φ τ L (y, g) - c)) / ε
      rw [← abs_mul_abs_self (chainMean f φ τ L (y, g) - c)]
      set a := |chainMean f φ τ L (y, g) - c|
      have h3 : ε / 4 + a * a / ε - a = (a - ε / 2) ^ 2 / ε := by field_simp; ring
      have h4 : 0 ≤ (a - ε / 2) ^ 2 / ε := by positivity
      linarith
    rw [integral_add (integrable_const _) ((b2.int μ).div_const ε), integral_const, probReal_univ, one_smul, integral_div] at h2
    have h5 : (∫ g, (chainMean f φ τ L (y, g) - c) * (chainMean f φ τ L (y, g) - c) ∂μ) / ε ≤ ε / 4 := by
      rw [div_le_iff₀ hε]
      have h6 : ∫ g, (chainMean f φ τ L (y, g) - c) * (chainMean f φ τ L (y, g) - c) ∂μ ≤ (ε / 2) ^ 2 := by
        simpa only [sq] using h1
      nlinarith
    linarith
  have hint : Tendsto (fun L => ∫ y, ∫ g, |chainMean f φ τ L (y, g) - c| ∂μ ∂P) atTop (𝓝 0) := by
    have := tendsto_integral_of_dominated_convergence (μ := P) (F := fun L y => ∫ g, |chainMean f φ τ L (y, g) - c| ∂μ) (f := fun _ => 0)
      (fun _ => 2) (fun L => by
        have h1 : StronglyMeasurable fun p : X × G => |chainMean f φ τ L p - c| :=
          (continuous_abs.measurable.comp ((mm L).sub_const c)).stronglyMeasurable
        exact h1.integral_prod_right'.aestronglyMeasurable) (integrable_const _)
      (fun L => ae_of_all _ fun y => by
        have := norm_integral_le_of_norm_le_const (μ := μ) (f := fun g => |chainMean f φ τ L (y, g) - c|) (C := 2)
          (ae_of_all _ fun g => by rw [Real.norm_eq_abs, abs_abs]; exact hbm L _)
        simpa using this) (hV.mono fun y hy => hmean y hy)
    simpa using this
  have h0 : Tendsto (fun L : ℕ => ∫ p, |orbitSum (S^[τ]) (fun p : X × G => φ p.1 - c) L p / L| ∂(P.prod μ)) atTop (𝓝 0) := by
    refine hint.congr' (eventually_atTop.2 ⟨1, fun L hL => ?_⟩)
    have e : ∀ p : X × G, |orbitSum (S^[τ]) (fun p : X × G => φ p.1 - c) L p / L| = |chainMean f φ τ L p - c| := fun p => by
      rw [chainMean_orbit τ L hL p]
    simp only [e]
    have b : Bdd 2 fun p : X × G => |chainMean f φ τ L p - c| :=
      ⟨continuous_abs.measurable.comp ((mm L).sub_const c), fun p => by rw [abs_abs]; exact hbm L p⟩
    exact (integral_prod _ (b.int _)).symm
  -- almost everywhere for the product
  set Good : Set (X × G) := {p | ∀ s, Tendsto (fun L => chainMean f φ τ L (S^[s] p)) atTop (𝓝 c)} with hGood
  have mGood : MeasurableSet Good := by
    have : Good = ⋂ s, {p | Tendsto (fun L => chainMean f φ τ L (S^[s] p)) atTop (𝓝 c)} := by ext p; simp [hGood]
    rw [this]
    exact MeasurableSet.iInter fun s => measurableSet_tendsto (𝓝 c) fun L => (mm L).comp (hf.iterate s)
  have haeG : ∀ᵐ p ∂(P.prod μ), p ∈ Good := by
    have h1 := orbitMean_tendsto bψ (hpres.iterate τ) h0
    have h2 : ∀ᵐ p ∂(P.prod μ), Tendsto (fun L => chainMean f φ τ L p) atTop (𝓝 c) := h1.mono fun p hp => (chainMean_tendsto τ p).1 hp
    exact ae_all_iff.2 fun s => (hpres.iterate s).quasiMeasurePreserving.ae h2
  -- the good pairs are invariant
  have hinv1 : ∀ p, S p ∈ Good ↔ p ∈ Good := by
    intro p
    constructor
    · intro h s
      rcases Nat.eq_zero_or_pos s with rfl | hs
      · refine chainMean_shift hφ τ p ?_
        have := h (τ - 1)
        rw [← Function.iterate_succ_apply, Nat.succ_eq_add_one, Nat.sub_add_cancel hτ] at this
        exact this
      · have := h (s - 1)
        rw [← Function.iterate_succ_apply, Nat.succ_eq_add_one, Nat.sub_add_cancel hs] at this
        exact this
    · intro h s
      rw [← Function.iterate_succ_apply]
      exact h (s + 1)
  have hinvt : ∀ t p, S^[t] p ∈ Good ↔ p ∈ Good := fun t p => by
    induction t generalizing p with
    | zero => exact Iff.rfl
    | succ t ih => rw [Function.iterate_succ_apply, ih, hinv1]
  -- the probability of a bad generator is harmonic and vanishes almost everywhere
  set Φ : X × G → ℝ := Goodᶜ.indicator 1 with hΦ
  have bΦ : Bdd 1 Φ := ⟨measurable_one.indicator mGood.compl, fun p => by
    by_cases hp : p ∈ Goodᶜ
    · rw [hΦ, indicator_of_mem hp]; simp
    · rw [hΦ, indicator_of_notMem hp]; simp⟩
  set q : X → ℝ := fun y => ∫ g, Φ (y, g) ∂μ with hq
  have bq : Bdd 1 q := ⟨bΦ.meas.stronglyMeasurable.integral_prod_right'.measurable, fun y => by
    have := norm_integral_le_of_norm_le_const (μ := μ) (f := fun g => Φ (y, g)) (C := 1) (ae_of_all _ fun g => bΦ.le _)
    simpa using this⟩
  have hharm : ∀ t, (avg ν T)^[t] q x = q x := fun t => by
    rw [← markov hf hT hd bΦ t x]
    refine integral_congr_ae (ae_of_all _ fun g => ?_)
    show Goodᶜ.indicator (1 : X × G → ℝ) (S^[t] (x, g)) = Goodᶜ.indicator (1 : X × G → ℝ) (x, g)
    by_cases hp : (x, g) ∈ Good
    · rw [indicator_of_notMem (show (x, g) ∉ Goodᶜ from fun h => h hp), indicator_of_notMem (show S^[t] (x, g) ∉ Goodᶜ from fun h => h ((hinvt t _).2 hp))]
    · rw [indicator_of_mem (show (x, g) ∈ Goodᶜ from hp), indicator_of_mem (show S^[t] (x, g) ∈ Goodᶜ from fun h => hp ((hinvt t _).1 h))]
      rfl
  have hq0 : ∫ y, q y ∂P = 0 := by
    rw [hq, ← integral_prod _ (bΦ.int _)]
    refine integral_eq_zero_of_ae (haeG.mono fun p hp => ?_)
    exact indicator_of_notMem (show p ∉ Goodᶜ from fun h => h hp) _
  have hqx : q x = 0 := by
    have h1 : ∀ ε > 0, |q x| ≤ ε := fun ε hε => by
      obtain ⟨N, hN⟩ := hpt x hx ε hε
      have := hN N le_rfl q bq
      rwa [hharm, hq0, sub_zero] at this
    exact abs_eq_zero.1 (le_antisymm (le_of_forall_pos_le_add fun ε hε => by rw [zero_add]; exact h1 ε hε) (abs_nonneg _))
  have hx0 : ∀ᵐ g ∂μ, (x, g) ∈ Good := by
    have mx : MeasurableSet {g | (x, g) ∈ Goodᶜ} := measurable_prodMk_left mGood.compl
    have e : q x = μ.real {g | (x, g) ∈ Goodᶜ} := by
      have h2 := integral_indicator_one (μ := μ) mx
      exact h2
    rw [hqx] at e
    rw [ae_iff]
    exact (measureReal_eq_zero_iff (measure_ne_top μ _)).1 e.symm
  filter_upwards [hx0] with g hg s
  have := hg s
  refine this.congr fun L => ?_
  unfold chainMean posAt
  congr 1
  refine Finset.sum_congr rfl fun i _ => ?_
  rw [← Function.iterate_add_apply, add_comm]

end

end PW
