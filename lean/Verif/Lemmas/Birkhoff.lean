import Verif.Lemmas.Ergodic
import Mathlib.Dynamics.Ergodic.MeasurePreserving
import Mathlib.MeasureTheory.Integral.DominatedConvergence

/-!
# Time averages converge almost everywhere

For a measure preserving map, time averages of a bounded function that converge to zero in mean converge to zero almost everywhere (the pointwise
ergodic theorem, with the identification of the limit as a hypothesis).
-/

namespace PW
open MeasureTheory Set Filter Topology

variable {Ω : Type} [MeasurableSpace Ω]

/-- Sum of `g` over the first `n` points of an orbit. -/
noncomputable def orbitSum (F : Ω → Ω) (g : Ω → ℝ) (n : ℕ) (ω : Ω) : ℝ := ∑ i ∈ Finset.range n, g (F^[i] ω)

/-- The largest of the first `n` such sums, and zero. -/
noncomputable def orbitMax (F : Ω → Ω) (g : Ω → ℝ) : ℕ → Ω → ℝ
  | 0, _ => 0
  | n + 1, ω => max 0 (g ω + orbitMax F g n (F ω))

section
variable {F : Ω → Ω} {g : Ω → ℝ}

omit [MeasurableSpace Ω] in
theorem orbitSum_succ' (n : ℕ) (ω : Ω) : orbitSum F g (n + 1) ω = g ω + orbitSum F g n (F ω) := by
  unfold orbitSum
  rw [Finset.sum_range_succ', add_comm]
  rfl

omit [MeasurableSpace Ω] in
theorem orbitMax_nonneg (n : ℕ) (ω : Ω) : 0 ≤ orbitMax F g n ω := by
  cases n with
  | zero => exact le_rfl
  | succ n => exact le_max_left _ _

omit [MeasurableSpace Ω] in
theorem orbitMax_step (n : ℕ) (ω : Ω) : orbitMax F g n ω ≤ orbitMax F g (n + 1) ω := by
  induction n generalizing ω with
  | zero => exact orbitMax_nonneg 1 ω
  | succ n ih => exact max_le_max le_rfl (by linarith [ih (F ω)])

omit [MeasurableSpace Ω] in
theorem orbitMax_mono {n m : ℕ} (h : n ≤ m) (ω : Ω) : orbitMax F g n ω ≤ orbitMax F g m ω :=
  monotone_nat_of_le_succ (f := fun n => orbitMax F g n ω) (fun n => orbitMax_step n ω) h

omit [MeasurableSpace Ω] in
theorem orbitSum_le_max (n : ℕ) (ω : Ω) : orbitSum F g n ω ≤ orbitMax F g n ω := by
  induction n generalizing ω with
  | zero => simp [orbitSum, orbitMax]
  | succ n ih =>
    rw [orbitSum_succ']
    exact le_trans (by linarith [ih (F ω)]) (le_max_right _ _)

theorem orbitMax_bdd (hF : Measurable F) {M : ℝ} (hg : Bdd M g) (n : ℕ) : Bdd (n * M) (orbitMax F g n) := by
  induction n with
  | zero => exact ⟨measurable_const, fun ω => by simp [orbitMax]⟩
  | succ n ih =>
    refine ⟨measurable_const.max (hg.meas.add (ih.meas.comp hF)), fun ω => ?_⟩
    rw [abs_of_nonneg (orbitMax_nonneg (n + 1) ω)]
    have h1 := (abs_le.1 (hg.le ω)).2
    have h2 := (abs_le.1 (ih.le (F ω))).2
    have h3 : 0 ≤ M := (abs_nonneg _).trans (hg.le ω)
    push_cast
    refine max_le (by positivity) (by linarith)

variable {ℙ : Measure Ω} [IsProbabilityMeasure ℙ] (hF : MeasurePreserving F ℙ ℙ)
include hF

/-- The maximal inequality. -/
theorem maximal {M : ℝ} (hg : Bdd M g) (n : ℕ) : 0 ≤ ∫ ω in {ω | 0 < orbitMax F g n ω}, g ω ∂ℙ := by
  have hb := orbitMax_bdd hF.measurable hg n
  have mS : MeasurableSet {ω | 0 < orbitMax F g n ω} := measurableSet_lt measurable_const hb.meas
  rw [← integral_indicator mS]
  have h1 : ∫ ω, (orbitMax F g n ω - orbitMax F g n (F ω)) ∂ℙ = 0 := by
    rw [integral_sub (hb.int ℙ) ((hb.comp hF.measurable).int ℙ)]
    have h2 : ∫ ω, orbitMax F g n (F ω) ∂ℙ = ∫ ω, orbitMax F g n ω ∂(ℙ.map F) :=
      (integral_map hF.measurable.aemeasurable hb.meas.aestronglyMeasurable).symm
    rw [h2, hF.map_eq, sub_self]
  refine h1.symm.le.trans ?_
  refine integral_mono ((hb.int ℙ).sub ((hb.comp hF.measurable).int ℙ)) ((hg.int ℙ).indicator mS) fun ω => ?_
  show orbitMax F g n ω - orbitMax F g n (F ω) ≤ _
  by_cases h : 0 < orbitMax F g n ω
  · rw [indicator_of_mem (show ω ∈ {ω | 0 < orbitMax F g n ω} from h)]
    cases n with
    | zero => exact absurd h (lt_irrefl _)
    | succ n =>
      have e : orbitMax F g (n + 1) ω = g ω + orbitMax F g n (F ω) := by
        refine max_eq_right (le_of_lt ?_)
        by_contra hc
        have : orbitMax F g (n + 1) ω = 0 := max_eq_left (not_lt.1 hc)
        linarith
      have := orbitMax_step (F := F) (g := g) n (F ω)
      linarith
  · rw [indicator_of_notMem (show ω ∉ {ω | 0 < orbitMax F g n ω} from h)]
    have := orbitMax_nonneg (F := F) (g := g) n (F ω)
    linarith

end

section
variable {F : Ω → Ω} {ψ : Ω → ℝ} {M : ℝ} (hψ : Bdd M ψ)
include hψ

theorem orbitSum_bdd (hF : Measurable F) (n : ℕ) : Bdd (n * M) (orbitSum F ψ n) := by
  refine ⟨Finset.measurable_fun_sum _ fun i _ => hψ.meas.comp (hF.iterate i), fun ω => ?_⟩
  refine (Finset.abs_sum_le_sum_abs _ _).trans ?_
  refine (Finset.sum_le_sum fun i _ => hψ.le _).trans (le_of_eq ?_)
  rw [Finset.sum_const, Finset.card_range, nsmul_eq_mul]

/-- One step further along the orbit the averages are the same in the limit. -/
theorem orbitMean_shift (ω : Ω) : Tendsto (fun n : ℕ => orbitSum F ψ n (F ω) / n - orbitSum F ψ n ω / n) atTop (𝓝 0) := by
  have h1 : Tendsto (fun n : ℕ => 2 * M / n) atTop (𝓝 0) := tendsto_const_nhds.div_atTop tendsto_natCast_atTop_atTop
  refine squeeze_zero_norm (fun n => ?_) h1
  have e : orbitSum F ψ n (F ω) - orbitSum F ψ n ω = ψ (F^[n] ω) - ψ ω := by
    have h2 := orbitSum_succ' (F := F) (g := ψ) n ω
    have h3 : orbitSum F ψ (n + 1) ω = orbitSum F ψ n ω + ψ (F^[n] ω) := Finset.sum_range_succ _ _
    linarith
  rw [← sub_div, e, Real.norm_eq_abs, abs_div, Nat.abs_cast]
  refine div_le_div_of_nonneg_right ?_ (Nat.cast_nonneg n)
  have h4 := abs_le.1 (hψ.le (F^[n] ω))
  have h5 := abs_le.1 (hψ.le ω)
  rw [abs_le]
  constructor <;> linarith [h4.1, h4.2, h5.1, h5.2]

omit [MeasurableSpace Ω] hψ in
theorem frequently_shift {u v : ℕ → ℝ} (h : Tendsto (fun n => u n - v n) atTop (𝓝 0)) {ε : ℝ} (hu : ∃ k : ℕ, ∃ᶠ n in atTop, ε + 1 / (k + 1 : ℝ) < v n) :
    ∃ k : ℕ, ∃ᶠ n in atTop, ε + 1 / (k + 1 : ℝ) < u n := by
  obtain ⟨k, hk⟩ := hu
  refine ⟨2 * k + 1, ?_⟩
  have h0 : (0 : ℝ) < 1 / (2 * (k + 1)) := by positivity
  have h1 : ∀ᶠ n in atTop, -(1 / (2 * (k + 1)) : ℝ) < u n - v n := h.eventually (lt_mem_nhds (by linarith))
  refine (hk.and_eventually h1).mono fun n hn => ?_
  have e : (1 : ℝ) / ((2 * k + 1 : ℕ) + 1 : ℝ) = 1 / (2 * (k + 1)) := by push_cast; congr 1; ring
  have e2 : (1 : ℝ) / (k + 1) = 1 / (2 * (k + 1)) + 1 / (2 * (k + 1)) := by field_simp; norm_num
  rw [e]
  have := hn.1
  have := hn.2
  linarith

variable {ℙ : Measure Ω} [IsProbabilityMeasure ℙ] (hF : MeasurePreserving F ℙ ℙ)
  (h0 : Tendsto (fun n : ℕ => ∫ ω, |orbitSum F ψ n ω / n| ∂ℙ) atTop (𝓝 0))
include hF h0

/-- Almost everywhere the averages are eventually below every positive level. -/
theorem orbitMean_upper {ε : ℝ} (hε : 0 < ε) :
    ∀ᵐ ω ∂ℙ, ¬ ∃ k : ℕ, ∃ᶠ n in atTop, ε + 1 / (k + 1 : ℝ) < orbitSum F ψ n ω / n := by
  set E : Set Ω := {ω | ∃ k : ℕ, ∃ᶠ n in atTop, ε + 1 / (k + 1 : ℝ) < orbitSum F ψ n ω / n} with hE
  have mA : ∀ n, Measurable fun ω => orbitSum F ψ n ω / n := fun n => (orbitSum_bdd hψ hF.measurable n).meas.div_const _
  have mE : MeasurableSet E := by
    have : E = ⋃ k : ℕ, ⋂ N : ℕ, ⋃ n : ℕ, {ω | N ≤ n ∧ ε + 1 / (k + 1 : ℝ) < orbitSum F ψ n ω / n} := by
      ext ω
      simp only [hE, mem_ofPred_eq, mem_iUnion, mem_iInter, frequently_atTop]
    rw [this]
    refine MeasurableSet.iUnion fun k => MeasurableSet.iInter fun N => MeasurableSet.iUnion fun n => ?_
    exact (MeasurableSet.const _).inter (measurableSet_lt measurable_const (mA n))
  have hinv : ∀ ω, F ω ∈ E ↔ ω ∈ E := fun ω => by
    have hs := orbitMean_shift (F := F) hψ ω
    refine ⟨fun h => frequently_shift (u := fun n => orbitSum F ψ n ω / n) ?_ h, fun h => frequently_shift hs h⟩
    have := hs.neg
    rw [neg_zero] at this
    refine this.congr fun n => by ring
  have hinvn : ∀ i ω, F^[i] ω ∈ E ↔ ω ∈ E := fun i ω => by
    induction i generalizing ω with
    | zero => exact Iff.rfl
    | succ i ih => rw [Function.iterate_succ_apply, ih, hinv]
  have hM : ∀ ω : Ω, 0 ≤ M := fun ω => (abs_nonneg _).trans (hψ.le ω)
  set g : Ω → ℝ := E.indicator fun ω => ψ ω - ε with hg
  have bg : Bdd (M + ε) g := by
    refine ⟨(hψ.meas.sub_const ε).indicator mE, fun ω => ?_⟩
    by_cases h : ω ∈ E
    · rw [hg, indicator_of_mem h]
      refine (abs_sub _ _).trans ?_
      rw [abs_of_pos hε]
      linarith [hψ.le ω]
    · rw [hg, indicator_of_notMem h, abs_zero]
      linarith [hM ω]
  have hpos : ∀ ω, (∃ n, 0 < orbitMax F g n ω) ↔ ω ∈ E := by
    intro ω
    constructor
    · rintro ⟨n, hn⟩
      by_contra hc
      have : ∀ n ω, ω ∉ E → orbitMax F g n ω = 0 := by
        intro n
        induction n with
        | zero => exact fun _ _ => rfl
        | succ n ih =>
          intro ω hω
          show max 0 (g ω + orbitMax F g n (F ω)) = 0
          rw [ih (F ω) (fun h => hω ((hinv ω).1 h)), hg, indicator_of_notMem hω, add_zero, max_self]
      rw [this n ω hc] at hn
      exact lt_irrefl _ hn
    · intro hω
      obtain ⟨k, hk⟩ := id hω
      obtain ⟨n, hn1, hn⟩ := (frequently_atTop.1 hk) 1
      refine ⟨n, lt_of_lt_of_le ?_ (orbitSum_le_max n ω)⟩
      have hnr : (0 : ℝ) < n := by exact_mod_cast hn1
      have e : orbitSum F g n ω = orbitSum F ψ n ω - n * ε := by
        unfold orbitSum
        rw [Finset.sum_congr rfl fun i _ => show g (F^[i] ω) = ψ (F^[i] ω) - ε from indicator_of_mem ((hinvn i ω).2 hω) _,
          Finset.sum_sub_distrib, Finset.sum_const, Finset.card_range, nsmul_eq_mul]
      rw [e]
      have h1 : (0 : ℝ) < 1 / (k + 1) := by positivity
      have h2 : ε < orbitSum F ψ n ω / n := by linarith
      rw [lt_div_iff₀ hnr] at h2
      linarith
  -- the maximal inequality in the limit
  have h1 : 0 ≤ ∫ ω in E, g ω ∂ℙ := by
    have hU : (⋃ n, {ω | 0 < orbitMax F g n ω}) = E := by
      ext ω
      rw [mem_iUnion]
      exact hpos ω
    have ht := tendsto_setIntegral_of_monotone (μ := ℙ) (f := g) (s := fun n => {ω | 0 < orbitMax F g n ω})
      (fun n => measurableSet_lt measurable_const (orbitMax_bdd hF.measurable bg n).meas)
      (fun n m h ω (hω : 0 < orbitMax F g n ω) => lt_of_lt_of_le hω (orbitMax_mono h ω)) (bg.int ℙ).integrableOn
    rw [hU] at ht
    exact ge_of_tendsto' ht fun n => maximal hF bg n
  have h2 : ∫ ω in E, g ω ∂ℙ = (∫ ω in E, ψ ω ∂ℙ) - (ℙ E).toReal * ε := by
    rw [setIntegral_congr_fun mE fun ω hω => indicator_of_mem hω _, integral_sub (hψ.int ℙ).integrableOn (integrable_const ε).integrableOn,
      setIntegral_const, smul_eq_mul]
    rfl
  -- the integral over `E` is that of the averages
  have h3 : ∀ i, ∫ ω in E, ψ (F^[i] ω) ∂ℙ = ∫ ω in E, ψ ω ∂ℙ := by
    intro i
    have hFi : MeasurePreserving (F^[i]) ℙ ℙ := hF.iterate i
    rw [← integral_indicator mE, ← integral_indicator mE]
    have e : ∀ ω, E.indicator (fun ω => ψ (F^[i] ω)) ω = E.indicator ψ (F^[i] ω) := fun ω => by
      by_cases h : ω ∈ E
      · rw [indicator_of_mem h, indicator_of_mem ((hinvn i ω).2 h)]
      · rw [indicator_of_notMem h, indicator_of_notMem (fun h' => h ((hinvn i ω).1 h'))]
    simp only [e]
    have := integral_map (μ := ℙ) hFi.measurable.aemeasurable (f := E.indicator ψ) (hψ.meas.indicator mE).aestronglyMeasurable
    rw [hFi.map_eq] at this
    exact this.symm
  have h4 : ∀ n : ℕ, 1 ≤ n → ∫ ω in E, ψ ω ∂ℙ ≤ ∫ ω, |orbitSum F ψ n ω / n| ∂ℙ := by
    intro n hn
    have hnr : (0 : ℝ) < n := by exact_mod_cast hn
    have bi : ∀ i, Integrable (fun ω => ψ (F^[i] ω)) ℙ := fun i => (hψ.comp (hF.measurable.iterate i)).int ℙ
    have e : ∫ ω in E, ψ ω ∂ℙ = ∫ ω in E, orbitSum F ψ n ω / n ∂ℙ := by
      unfold orbitSum
      rw [integral_div, integral_finsetSum _ fun i _ => (bi i).integrableOn, Finset.sum_congr rfl fun i _ => h3 i, Finset.sum_const,
        Finset.card_range, nsmul_eq_mul]
      field_simp
    rw [e]
    have ib : Integrable (fun ω => orbitSum F ψ n ω / n) ℙ := ((orbitSum_bdd hψ hF.measurable n).int ℙ).div_const _
    refine (le_abs_self _).trans ((abs_integral_le_integral_abs).trans ?_)
    exact setIntegral_le_integral ib.abs (ae_of_all _ fun ω => abs_nonneg _)
  have h5 : ∫ ω in E, ψ ω ∂ℙ ≤ 0 := ge_of_tendsto h0 (eventually_atTop.2 ⟨1, h4⟩)
  have h6 : (ℙ E).toReal = 0 := by
    have : 0 ≤ (ℙ E).toReal := ENNReal.toReal_nonneg
    nlinarith
  have h7 : ℙ E = 0 := by
    rcases (ENNReal.toReal_eq_zero_iff _).1 h6 with h | h
    · exact h
    · exact absurd h (measure_ne_top ℙ E)
  rw [ae_iff]
  refine measure_mono_null (fun ω hω => ?_) h7
  exact not_not.1 hω

/-- The averages converge to zero almost everywhere. -/
theorem orbitMean_tendsto : ∀ᵐ ω ∂ℙ, Tendsto (fun n : ℕ => orbitSum F ψ n ω / n) atTop (𝓝 0) := by
  have hψ' : Bdd M fun ω => -ψ ω := ⟨hψ.meas.neg, fun ω => by rw [abs_neg]; exact hψ.le ω⟩
  have hneg : ∀ n ω, orbitSum F (fun ω => -ψ ω) n ω = -orbitSum F ψ n ω := fun n ω => by
    unfold orbitSum
    rw [Finset.sum_neg_distrib]
  have h0' : Tendsto (fun n : ℕ => ∫ ω, |orbitSum F (fun ω => -ψ ω) n ω / n| ∂ℙ) atTop (𝓝 0) := by
    refine h0.congr fun n => ?_
    congr 1
    funext ω
    rw [hneg, neg_div, abs_neg]
  have h1 : ∀ᵐ ω ∂ℙ, ∀ j : ℕ, ¬ ∃ k : ℕ, ∃ᶠ n in atTop, 1 / (j + 1 : ℝ) + 1 / (k + 1 : ℝ) < orbitSum F ψ n ω / n :=
    ae_all_iff.2 fun j => orbitMean_upper hψ hF h0 (by positivity)
  have h2 : ∀ᵐ ω ∂ℙ, ∀ j : ℕ, ¬ ∃ k : ℕ, ∃ᶠ n in atTop, 1 / (j + 1 : ℝ) + 1 / (k + 1 : ℝ) < orbitSum F (fun ω => -ψ ω) n ω / n :=
    ae_all_iff.2 fun j => orbitMean_upper hψ' hF h0' (by positivity)
  filter_upwards [h1, h2] with ω hu hl
  rw [Metric.tendsto_atTop]
  intro ε hε
  obtain ⟨j, hj⟩ := exists_nat_one_div_lt (half_pos (half_pos hε))
  have up : ∀ {u : ℕ → ℝ}, (¬ ∃ k : ℕ, ∃ᶠ n in atTop, 1 / (j + 1 : ℝ) + 1 / (k + 1 : ℝ) < u n) → ∀ᶠ n in atTop, u n ≤ ε / 2 := by
    intro u h
    push Not at h
    refine (h j).mono fun n hn => ?_
    linarith
  have h3 := (up (hu j)).and (up (hl j))
  obtain ⟨N, hN⟩ := eventually_atTop.1 h3
  refine ⟨N, fun n hn => ?_⟩
  rw [Real.dist_eq, sub_zero]
  have h4 := (hN n hn).1
  have h5 := (hN n hn).2
  rw [hneg, neg_div] at h5
  have : |orbitSum F ψ n ω / n| ≤ ε / 2 := abs_le.2 ⟨by linarith, h4⟩
  linarith

end

end PW
