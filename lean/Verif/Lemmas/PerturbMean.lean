import Verif.Lemmas.Perturb

/-! # Averages along chains that nearly follow another chain; almost sure invariants -/

namespace PW
open MeasureTheory Set Filter Topology
open scoped ENNReal

/-- A chain stays where it is well defined, almost surely. -/
theorem drives_good {Z W G : Type} [MeasurableSpace Z] [MeasurableSpace W] [MeasurableSpace G] {μ : Measure G} {ν : Measure W}
    {f : Z → G → Z × G} {T : Z → W → Z} (hf : Measurable fun p : Z × G => f p.1 p.2) (hd : Drives μ ν f T) {S : Set (Z × G)}
    (hS : MeasurableSet S) {I : Set Z} (hI : ∀ z ∈ I, ∀ᵐ w ∂ν, T z w ∈ I) (h0 : ∀ z ∈ I, ∀ᵐ g ∂μ, (z, g) ∈ S) :
    ∀ z ∈ I, ∀ᵐ g ∂μ, ∀ t, (fun p : Z × G => f p.1 p.2)^[t] (z, g) ∈ S := by
  intro z hz
  refine ae_all_iff.2 fun t => ?_
  induction t generalizing z with
  | zero => exact h0 z hz
  | succ t ih =>
    have mt' : Measurable ((fun p : Z × G => f p.1 p.2)^[t]) := hf.iterate _
    have mB : Measurable fun p : Z × G => Sᶜ.indicator (1 : Z × G → ℝ≥0∞) ((fun p : Z × G => f p.1 p.2)^[t] p) :=
      (measurable_one.indicator hS.compl).comp mt'
    have h1 := hd _ mB z
    have h2 : ∫⁻ g, Sᶜ.indicator (1 : Z × G → ℝ≥0∞) ((fun p : Z × G => f p.1 p.2)^[t] (f z g)) ∂μ = 0 := by
      rw [h1, lintegral_congr_ae (g := fun _ => 0)]
      · simp
      filter_upwards [hI z hz] with w hw
      rw [lintegral_congr_ae (g := fun _ => 0)]
      · simp
      filter_upwards [ih _ hw] with g hg
      exact indicator_of_notMem (fun hn : _ ∈ Sᶜ => hn hg) _
    have m2 : Measurable fun g : G => Sᶜ.indicator (1 : Z × G → ℝ≥0∞) ((fun p : Z × G => f p.1 p.2)^[t] (f z g)) :=
      mB.comp (hf.comp measurable_prodMk_left)
    have h3 := (lintegral_eq_zero_iff m2).1 h2
    filter_upwards [h3] with g hg
    rw [Function.iterate_succ_apply]
    by_contra hn
    have h4 : Sᶜ.indicator (1 : Z × G → ℝ≥0∞) ((fun p : Z × G => f p.1 p.2)^[t] (f z g)) = 0 := hg
    rw [indicator_of_mem (show _ ∈ Sᶜ from hn)] at h4
    simp at h4

/-- Mean square error as a sum of covariances. -/
theorem mse_expand {G : Type} [MeasurableSpace G] {μ : Measure G} [IsProbabilityMeasure μ] {L : ℕ} (hL : 1 ≤ L) {φ : ℕ → G → ℝ}
    (hφ : ∀ i, Bdd 1 (φ i)) {c : ℝ} (hc : |c| ≤ 1) :
    ∫ g, ((∑ i ∈ Finset.range L, φ i g) / L - c) ^ 2 ∂μ =
      4 * (∑ i ∈ Finset.range L, ∑ j ∈ Finset.range L, ∫ g, ((φ i g - c) / 2) * ((φ j g - c) / 2) ∂μ) / L ^ 2 := by
  have hLr : (0 : ℝ) < L := by exact_mod_cast hL
  have bD : ∀ i, Bdd 1 fun g => (φ i g - c) / 2 := fun i => ⟨((hφ i).meas.sub_const c).div_const 2, fun g => by
    have := (hφ i).le g
    rw [abs_div, abs_of_pos (by norm_num : (0 : ℝ) < 2), div_le_one (by norm_num)]
    exact (abs_sub _ _).trans (by linarith)⟩
  have iD : ∀ i j, Integrable (fun g => ((φ i g - c) / 2) * ((φ j g - c) / 2)) μ := fun i j => ((bD i).mul (bD j)).int μ
  have e : ∀ g, ((∑ i ∈ Finset.range L, φ i g) / L - c) ^ 2 =
      4 / L ^ 2 * ∑ i ∈ Finset.range L, ∑ j ∈ Finset.range L, ((φ i g - c) / 2) * ((φ j g - c) / 2) := by
    intro g
    rw [← Finset.sum_mul_sum]
    have h1 : ∑ i ∈ Finset.range L, (φ i g - c) / 2 = ((∑ i ∈ Finset.range L, φ i g) - L * c) / 2 := by
      rw [← Finset.sum_div, Finset.sum_sub_distrib, Finset.sum_const, Finset.card_range, nsmul_eq_mul]
    rw [h1]
    field_simp
    ring
  simp only [e]
  rw [integral_const_mul, integral_finsetSum _ fun i _ => integrable_finset_sum _ fun j _ => iD i j]
  rw [Finset.sum_congr rfl fun i _ => integral_finsetSum _ fun j _ => iD i j]
  ring

section
variable {X Z W G : Type} [MeasurableSpace X] [MeasurableSpace Z] [MeasurableSpace W] [MeasurableSpace G] {ν : Measure W} [IsProbabilityMeasure ν]
  {μ : Measure G} [IsProbabilityMeasure μ]
  {T : X → W → X} (hT : Measurable fun p : X × W => T p.1 p.2) {T' : Z → W → Z} (hT' : Measurable fun p : Z × W => T' p.1 p.2)
  {π : Z → X} (hπ : Measurable π) {I : Set Z} (hI : ∀ z ∈ I, ∀ᵐ w ∂ν, T' z w ∈ I) {dev : X → ℝ} (hdev : Bdd 2 dev) (hdev0 : ∀ x, 0 ≤ dev x)
  (hstep : ∀ z ∈ I, ∀ f : X → ℝ, Bdd 1 f → |∫ w, f (π (T' z w)) ∂ν - ∫ w, f (T (π z) w) ∂ν| ≤ dev (π z))
  {f : X → G → X × G} (hf : Measurable fun p : X × G => f p.1 p.2) (hd : Drives μ ν f T)
  {f' : Z → G → Z × G} (hf' : Measurable fun p : Z × G => f' p.1 p.2) (hd' : Drives μ ν f' T')
include hT hT' hπ hI hdev hdev0 hstep hf hd hf' hd'

/-- The mean square error of averages changes by at most four drifts. -/
theorem near_mse {φ : X → ℝ} (hφ : Bdd 1 φ) {c : ℝ} (hc : |c| ≤ 1) {L : ℕ} (hL : 1 ≤ L) {H : ℕ} (time : ℕ → ℕ) (hmono : Monotone time)
    (htime : ∀ i < L, time i ≤ H) {z : Z} (hz : z ∈ I) :
    ∫ g, ((∑ i ∈ Finset.range L, φ (π (posAt f' z (time i) g))) / L - c) ^ 2 ∂μ ≤
      ∫ g, ((∑ i ∈ Finset.range L, φ (posAt f (π z) (time i) g)) / L - c) ^ 2 ∂μ + 4 * driftSum ν T dev H (π z) := by
  have hLr : (0 : ℝ) < L := by exact_mod_cast hL
  have bψ : Bdd 1 fun y => (φ y - c) / 2 := ⟨(hφ.meas.sub_const c).div_const 2, fun g => by
    have := hφ.le g
    rw [abs_div, abs_of_pos (by norm_num : (0 : ℝ) < 2), div_le_one (by norm_num)]
    exact (abs_sub _ _).trans (by linarith)⟩
  rw [mse_expand hL (fun i => (hφ.comp hπ).comp (measurable_posAt hf' z (time i))) hc,
    mse_expand hL (fun i => hφ.comp (measurable_posAt hf (π z) (time i))) hc]
  have hpair : ∀ i j, i ≤ j → j < L →
      ∫ g, ((φ (π (posAt f' z (time i) g)) - c) / 2) * ((φ (π (posAt f' z (time j) g)) - c) / 2) ∂μ ≤
      ∫ g, ((φ (posAt f (π z) (time i) g) - c) / 2) * ((φ (posAt f (π z) (time j) g) - c) / 2) ∂μ + driftSum ν T dev H (π z) := by
    intro i j hij hj
    obtain ⟨t, ht⟩ := Nat.exists_eq_add_of_le (hmono hij)
    have h1 := markov_pair hf' hT' hd' (bψ.comp hπ) (bψ.comp hπ) (time i) t z
    have h2 := markov_pair hf hT hd bψ bψ (time i) t (π z)
    have h3 := near_pair hT hT' hπ hI hdev hdev0 hstep bψ bψ (time i) t hz
    have h4 : driftSum ν T dev (time i + t) (π z) ≤ driftSum ν T dev H (π z) := driftSum_mono hT hdev hdev0 (ht ▸ htime j hj) _
    have h5 := (abs_le.1 h3).2
    rw [Nat.add_comm, ← ht] at h1 h2
    have h6 : ∫ g, ((φ (π (posAt f' z (time i) g)) - c) / 2) * ((φ (π (posAt f' z (time j) g)) - c) / 2) ∂μ = _ := h1
    have h7 : ∫ g, ((φ (posAt f (π z) (time i) g) - c) / 2) * ((φ (posAt f (π z) (time j) g) - c) / 2) ∂μ = _ := h2
    rw [h6, h7]
    linarith
  have hpair' : ∀ i < L, ∀ j < L,
      ∫ g, ((φ (π (posAt f' z (time i) g)) - c) / 2) * ((φ (π (posAt f' z (time j) g)) - c) / 2) ∂μ ≤
      ∫ g, ((φ (posAt f (π z) (time i) g) - c) / 2) * ((φ (posAt f (π z) (time j) g) - c) / 2) ∂μ + driftSum ν T dev H (π z) := by
    intro i hi j hj
    rcases le_total i j with h | h
    · exact hpair i j h hj
    · have := hpair j i h hi
      simp only [mul_comm ((φ (π (posAt f' z (time i) _)) - c) / 2), mul_comm ((φ (posAt f (π z) (time i) _) - c) / 2)]
      exact this
  have hsum : (∑ i ∈ Finset.range L, ∑ j ∈ Finset.range L,
        ∫ g, ((φ (π (posAt f' z (time i) g)) - c) / 2) * ((φ (π (posAt f' z (time j) g)) - c) / 2) ∂μ) ≤
      (∑ i ∈ Finset.range L, ∑ j ∈ Finset.range L,
        ∫ g, ((φ (posAt f (π z) (time i) g) - c) / 2) * ((φ (posAt f (π z) (time j) g) - c) / 2) ∂μ) + L ^ 2 * driftSum ν T dev H (π z) := by
    have := Finset.sum_le_sum fun i (hi : i ∈ Finset.range L) => Finset.sum_le_sum fun j (hj : j ∈ Finset.range L) =>
      hpair' i (Finset.mem_range.1 hi) j (Finset.mem_range.1 hj)
    refine this.trans (le_of_eq ?_)
    simp only [Finset.sum_add_distrib, Finset.sum_const, Finset.card_range, nsmul_eq_mul]
    ring
  rw [div_add' _ _ _ (by positivity)]
  refine div_le_div_of_nonneg_right ?_ (by positivity)
  linarith

end

end PW
