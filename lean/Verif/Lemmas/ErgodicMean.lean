import Verif.Lemmas.Ergodic

/-! # Law of large numbers for chains that converge from a point -/

namespace PW
open MeasureTheory Set Filter Topology
open scoped ENNReal

variable {X W G : Type} [MeasurableSpace X] [MeasurableSpace W] [MeasurableSpace G]

/-- A random map `f` driven by a generator of law `μ` moves like `T` driven by draws of law `ν`, and leaves a fresh generator. -/
def Drives (μ : Measure G) (ν : Measure W) (f : X → G → X × G) (T : X → W → X) : Prop :=
  ∀ F : X × G → ℝ≥0∞, Measurable F → ∀ x, ∫⁻ g, F (f x g) ∂μ = ∫⁻ w, ∫⁻ g, F (T x w, g) ∂μ ∂ν

/-- Position after `t` iterations. -/
def posAt (f : X → G → X × G) (x : X) (t : ℕ) (g : G) : X := ((fun p : X × G => f p.1 p.2)^[t] (x, g)).1

section
variable {μ : Measure G} [IsProbabilityMeasure μ] {ν : Measure W} [IsProbabilityMeasure ν] {f : X → G → X × G} {T : X → W → X}
  (hf : Measurable fun p : X × G => f p.1 p.2) (hT : Measurable fun p : X × W => T p.1 p.2) (hd : Drives μ ν f T)
include hf

theorem measurable_posAt (x : X) (t : ℕ) : Measurable (posAt f x t) :=
  ((hf.iterate t).comp (measurable_prodMk_left (x := x))).fst

include hT hd

theorem drives_real {M : ℝ} {Φ : X × G → ℝ} (hΦ : Bdd M Φ) (x : X) : ∫ g, Φ (f x g) ∂μ = ∫ w, ∫ g, Φ (T x w, g) ∂μ ∂ν := by
  have mfx : Measurable (f x) := hf.comp measurable_prodMk_left
  have mTx : Measurable fun p : W × G => (T x p.1, p.2) := ((meas_at hT x).comp measurable_fst).prodMk measurable_snd
  have e : μ.map (f x) = (ν.prod μ).map fun p : W × G => (T x p.1, p.2) := by
    refine Measure.ext_of_lintegral _ fun F hF => ?_
    rw [lintegral_map hF mfx, lintegral_map hF mTx, hd F hF x]
    exact (lintegral_prod (fun p : W × G => F (T x p.1, p.2)) (hF.comp mTx).aemeasurable).symm
  have h1 : ∫ g, Φ (f x g) ∂μ = ∫ z, Φ z ∂(μ.map (f x)) := (integral_map mfx.aemeasurable hΦ.meas.aestronglyMeasurable).symm
  rw [h1, e, integral_map mTx.aemeasurable hΦ.meas.aestronglyMeasurable]
  exact integral_prod (fun p : W × G => Φ (T x p.1, p.2)) ((hΦ.comp mTx).int _)

/-- The Markov property. -/
theorem markov {M : ℝ} {Φ : X × G → ℝ} (hΦ : Bdd M Φ) (t : ℕ) (x : X) :
    ∫ g, Φ ((fun p : X × G => f p.1 p.2)^[t] (x, g)) ∂μ = (avg ν T)^[t] (fun y => ∫ g, Φ (y, g) ∂μ) x := by
  induction t generalizing x with
  | zero => rfl
  | succ t ih =>
    have h1 := drives_real hf hT hd (hΦ.comp (hf.iterate t)) x
    rw [Function.iterate_succ_apply']
    have h2 : ∀ g, Φ ((fun p : X × G => f p.1 p.2)^[t + 1] (x, g)) = Φ ((fun p : X × G => f p.1 p.2)^[t] (f x g)) := fun g => by
      rw [Function.iterate_succ_apply]
    simp only [h2]
    rw [h1]
    show _ = ∫ w, _ ∂ν
    exact integral_congr_ae (ae_of_all _ fun w => ih (T x w))

theorem markov_pos {M : ℝ} {φ : X → ℝ} (hφ : Bdd M φ) (t : ℕ) (x : X) :
    ∫ g, φ (posAt f x t g) ∂μ = (avg ν T)^[t] φ x := by
  have := markov hf hT hd (hφ.comp (measurable_fst (α := X) (β := G))) t x
  simp only [integral_const, probReal_univ, one_smul] at this
  exact this

/-- Two positions. -/
theorem markov_pair {M N : ℝ} {φ ψ : X → ℝ} (hφ : Bdd M φ) (hψ : Bdd N ψ) (s t : ℕ) (x : X) :
    ∫ g, ψ (posAt f x s g) * φ (posAt f x (t + s) g) ∂μ = (avg ν T)^[s] (fun y => ψ y * (avg ν T)^[t] φ y) x := by
  have h1 := markov hf hT hd ((hψ.comp (measurable_fst (α := X) (β := G))).mul (hφ.comp (hf.iterate t).fst)) s x
  have e : ∀ g, ψ (posAt f x s g) * φ (posAt f x (t + s) g) =
      ψ ((fun p : X × G => f p.1 p.2)^[s] (x, g)).1 * φ ((fun p : X × G => f p.1 p.2)^[t] ((fun p : X × G => f p.1 p.2)^[s] (x, g))).1 :=
    fun g => by unfold posAt; rw [Function.iterate_add_apply]
  simp only [e]
  rw [h1]
  refine congrArg (fun u => (avg ν T)^[s] u x) (funext fun y => ?_)
  simp only
  rw [integral_const_mul]
  exact congrArg (ψ y * ·) (markov_pos hf hT hd hφ t y)

end

theorem avg_mono {ν : Measure W} [IsProbabilityMeasure ν] {T : X → W → X} (hT : Measurable fun p : X × W => T p.1 p.2) {M N : ℝ}
    {f g : X → ℝ} (hf : Bdd M f) (hg : Bdd N g) (h : ∀ x, f x ≤ g x) (n : ℕ) (x : X) : (avg ν T)^[n] f x ≤ (avg ν T)^[n] g x := by
  induction n generalizing x with
  | zero => exact h x
  | succ n ih =>
    rw [Function.iterate_succ_apply', Function.iterate_succ_apply']
    exact integral_mono (((hf.avgIter hT n).comp (meas_at hT x)).int ν) (((hg.avgIter hT n).comp (meas_at hT x)).int ν) fun w => ih _

theorem avg_sub_const {ν : Measure W} [IsProbabilityMeasure ν] {T : X → W → X} (hT : Measurable fun p : X × W => T p.1 p.2) {M : ℝ}
    {f : X → ℝ} (hf : Bdd M f) (c : ℝ) (n : ℕ) (x : X) : (avg ν T)^[n] (fun y => f y - c) x = (avg ν T)^[n] f x - c := by
  induction n generalizing x with
  | zero => rfl
  | succ n ih =>
    rw [Function.iterate_succ_apply', Function.iterate_succ_apply']
    show ∫ w, _ ∂ν = ∫ w, _ ∂ν - c
    rw [integral_congr_ae (ae_of_all _ fun w => ih (T x w)), integral_sub (((hf.avgIter hT n).comp (meas_at hT x)).int ν) (integrable_const _)]
    simp

omit [MeasurableSpace X] in
theorem avg_const_mul {ν : Measure W} {T : X → W → X} (f : X → ℝ) (c : ℝ) (n : ℕ) (x : X) :
    (avg ν T)^[n] (fun y => c * f y) x = c * (avg ν T)^[n] f x := by
  induction n generalizing x with
  | zero => rfl
  | succ n ih =>
    rw [Function.iterate_succ_apply', Function.iterate_succ_apply']
    show ∫ w, _ ∂ν = c * ∫ w, _ ∂ν
    rw [integral_congr_ae (ae_of_all _ fun w => ih (T x w)), integral_const_mul]

theorem count_near (L i t : ℕ) : ∑ j ∈ Finset.range L, (if j < i + t ∧ i < j + t then (1 : ℝ) else 0) ≤ 2 * t := by
  rw [← Finset.sum_filter, Finset.sum_const, nsmul_eq_mul, mul_one]
  have : (Finset.range L).filter (fun j => j < i + t ∧ i < j + t) ⊆ Finset.Ico (i + 1 - t) (i + t) := by
    intro j hj
    have := (Finset.mem_filter.1 hj).2
    exact Finset.mem_Ico.2 ⟨by omega, this.1⟩
  have h := Finset.card_le_card this
  rw [Nat.card_Ico] at h
  have h2 : ((Finset.range L).filter (fun j => j < i + t ∧ i < j + t)).card ≤ 2 * t := by omega
  exact_mod_cast h2

theorem count_small (L N : ℕ) : ∑ j ∈ Finset.range L, (if j < N then (1 : ℝ) else 0) ≤ N := by
  rw [← Finset.sum_filter, Finset.sum_const, nsmul_eq_mul, mul_one]
  have : (Finset.range L).filter (fun j => j < N) ⊆ Finset.range N := by
    intro j hj
    exact Finset.mem_range.2 (Finset.mem_filter.1 hj).2
  have h := Finset.card_le_card this
  rw [Finset.card_range] at h
  exact_mod_cast h

section
variable {P : Measure X} [IsProbabilityMeasure P] {ν : Measure W} [IsProbabilityMeasure ν] {T : X → W → X}
  (hT : Measurable fun p : X × W => T p.1 p.2)
include hT

/-- **Law of large numbers.** If the chain converges from `x` and in mean, averages along it converge in mean square, whatever the
burn-in `τ₀` and the thinning `τ`. -/
theorem mean_square {x : X} (hpt : ∀ ε > 0, ∃ N : ℕ, ∀ n ≥ N, ∀ h : X → ℝ, Bdd 1 h → |(avg ν T)^[n] h x - ∫ y, h y ∂P| ≤ ε)
    {φ : X → ℝ} (hφ : Bdd 1 φ) (hl1 : Tendsto (fun n => ∫ x, |(avg ν T)^[n] φ x - ∫ y, φ y ∂P| ∂P) atTop (𝓝 0)) {ε : ℝ} (hε : 0 < ε) :
    ∃ L₀ : ℕ, 1 ≤ L₀ ∧ ∀ {G : Type} [MeasurableSpace G] (μ : Measure G) [IsProbabilityMeasure μ] (f : X → G → X × G),
      (Measurable fun p : X × G => f p.1 p.2) → Drives μ ν f T → ∀ L ≥ L₀, ∀ τ₀ τ : ℕ, 1 ≤ τ →
      ∫ g, ((∑ i ∈ Finset.range L, φ (posAt f x (τ₀ + i * τ) g)) / L - ∫ y, φ y ∂P) ^ 2 ∂μ ≤ ε := by
  set c := ∫ y, φ y ∂P with hc
  have hc1 : |c| ≤ 1 := by
    have := norm_integral_le_of_norm_le_const (μ := P) (f := φ) (C := 1) (ae_of_all _ fun w => hφ.le _)
    rw [Real.norm_eq_abs] at this
    simpa using this
  set e := ε / 16 with he
  have he0 : 0 < e := by positivity
  obtain ⟨N, hN⟩ := hpt e he0
  obtain ⟨t₀, ht₀⟩ := Metric.tendsto_atTop.1 hl1 e he0
  obtain ⟨L₁, hL₁⟩ := exists_nat_gt ((8 * N + 8 * t₀) / (ε / 2))
  refine ⟨L₁ + 1, by omega, fun {G} _ μ _ f hf hd L hL τ₀ τ hτ => ?_⟩
  have hLr : (0 : ℝ) < L := by
    have : 1 ≤ L := by omega
    exact_mod_cast this
  set D : ℕ → G → ℝ := fun i g => φ (posAt f x (τ₀ + i * τ) g) - c with hD
  have mP : ∀ t, Measurable (posAt f x t) := measurable_posAt hf x
  have hψ : Bdd 2 fun y => φ y - c := by
    have := hφ.sub (Bdd.const (X := X) c)
    exact ⟨this.meas, fun y => (this.le y).trans (by linarith)⟩
  have bD : ∀ i, Bdd 2 (D i) := fun i => hψ.comp (mP _)
  have iD : ∀ i j, Integrable (fun g => D i g * D j g) μ := fun i j => ((bD i).mul (bD j)).int μ
  -- covariances
  have cov4 : ∀ i j, ∫ g, D i g * D j g ∂μ ≤ 4 := fun i j => by
    have h1 : ∫ g, D i g * D j g ∂μ ≤ ∫ _, (4 : ℝ) ∂μ := integral_mono (iD i j) (integrable_const _) fun g =>
      (le_abs_self _).trans ((((bD i).mul (bD j)).le g).trans (by norm_num))
    simpa using h1
  have covs : ∀ i j, N ≤ i → i + t₀ ≤ j → ∫ g, D i g * D j g ∂μ ≤ 8 * e := by
    intro i j hi hij
    have e2 : (j - i) * τ + (τ₀ + i * τ) = τ₀ + j * τ := by
      obtain ⟨k, rfl⟩ := Nat.exists_eq_add_of_le (show i ≤ j by omega)
      rw [Nat.add_sub_cancel_left]; ring
    have h1 := markov_pair hf hT hd hψ hψ (τ₀ + i * τ) ((j - i) * τ) x
    rw [e2] at h1
    have hi' : N ≤ τ₀ + i * τ := by nlinarith
    have hj' : t₀ ≤ (j - i) * τ := by
      have : t₀ ≤ j - i := by omega
      nlinarith
    set S := τ₀ + i * τ
    set R := (j - i) * τ
    set h : X → ℝ := fun y => |(avg ν T)^[R] φ y - c| / 2 with hh
    have bh : Bdd 1 h := by
      have := (hφ.avgIter (ν := ν) hT R).sub (Bdd.const (X := X) c)
      have hm : Measurable h := (continuous_abs.measurable.comp this.meas).div_const 2
      refine ⟨hm, fun y => ?_⟩
      have h2 := this.le y
      simp only [hh]
      rw [abs_of_nonneg (by positivity)]
      linarith
    have b1 : Bdd (2 * 2) fun y => (φ y - c) * (avg ν T)^[R] (fun y => φ y - c) y := hψ.mul (hψ.avgIter hT R)
    have b2 : Bdd 4 fun y => 4 * h y := ⟨bh.meas.const_mul 4, fun y => by
      rw [abs_mul, abs_of_pos (by norm_num : (0 : ℝ) < 4)]; linarith [bh.le y]⟩
    have h2 : (avg ν T)^[S] (fun y => (φ y - c) * (avg ν T)^[R] (fun y => φ y - c) y) x ≤ (avg ν T)^[S] (fun y => 4 * h y) x := by
      refine avg_mono hT b1 b2 (fun y => ?_) S x
      rw [avg_sub_const hT hφ]
      refine (le_abs_self _).trans ?_
      rw [abs_mul]
      have : |φ y - c| * |(avg ν T)^[R] φ y - c| ≤ 2 * |(avg ν T)^[R] φ y - c| :=
        mul_le_mul_of_nonneg_right (hψ.le y) (abs_nonneg _)
      simp only [hh]
      linarith
    rw [avg_const_mul] at h2
    have h3 := abs_le.1 (hN S hi' h bh)
    have h4 : ∫ y, h y ∂P ≤ e := by
      simp only [hh]
      rw [integral_div]
      have := ht₀ R hj'
      rw [Real.dist_eq, sub_zero] at this
      have h5 := (le_abs_self _).trans this.le
      have h6 : 0 ≤ ∫ y, |(avg ν T)^[R] φ y - c| ∂P := integral_nonneg fun y => abs_nonneg _
      linarith
    have h7 : ∫ g, D i g * D j g ∂μ = (avg ν T)^[S] (fun y => (φ y - c) * (avg ν T)^[R] (fun y => φ y - c) y) x := h1
    rw [h7]
    linarith [h3.2]
  have hcov : ∀ i j, ∫ g, D i g * D j g ∂μ ≤ 8 * e + 4 * (if i < N then (1 : ℝ) else 0) + 4 * (if j < N then (1 : ℝ) else 0) +
      4 * (if j < i + t₀ ∧ i < j + t₀ then (1 : ℝ) else 0) := by
    intro i j
    have p1 : (0 : ℝ) ≤ if i < N then (1 : ℝ) else 0 := by split_ifs <;> norm_num
    have p2 : (0 : ℝ) ≤ if j < N then (1 : ℝ) else 0 := by split_ifs <;> norm_num
    have p3 : (0 : ℝ) ≤ if j < i + t₀ ∧ i < j + t₀ then (1 : ℝ) else 0 := by split_ifs <;> norm_num
    by_cases h1 : i < N
    · rw [if_pos h1]; have := cov4 i j; linarith
    by_cases h2 : j < N
    · rw [if_pos h2]; have := cov4 i j; linarith
    by_cases h3 : j < i + t₀ ∧ i < j + t₀
    · rw [if_pos h3]; have := cov4 i j; linarith
    rcases not_and_or.1 h3 with h | h
    · have := covs i j (by omega) (by omega); linarith
    · have := covs j i (by omega) (by omega)
      have e3 : ∫ g, D i g * D j g ∂μ = ∫ g, D j g * D i g ∂μ := by congr 1; funext g; ring
      rw [e3]; linarith
  have esq : ∀ g, ((∑ i ∈ Finset.range L, φ (posAt f x (τ₀ + i * τ) g)) / L - c) ^ 2 =
      (L ^ 2 : ℝ)⁻¹ * ∑ i ∈ Finset.range L, ∑ j ∈ Finset.range L, D i g * D j g := by
    intro g
    have h : (∑ i ∈ Finset.range L, φ (posAt f x (τ₀ + i * τ) g)) / L - c = (L : ℝ)⁻¹ * ∑ i ∈ Finset.range L, D i g := by
      simp only [hD]
      rw [Finset.sum_sub_distrib, Finset.sum_const, Finset.card_range, nsmul_eq_mul]
      field_simp
    rw [h, mul_pow, sq (∑ i ∈ Finset.range L, D i g), Finset.sum_mul_sum, inv_pow]
  have hint : ∫ g, ((∑ i ∈ Finset.range L, φ (posAt f x (τ₀ + i * τ) g)) / L - c) ^ 2 ∂μ =
      (L ^ 2 : ℝ)⁻¹ * ∑ i ∈ Finset.range L, ∑ j ∈ Finset.range L, ∫ g, D i g * D j g ∂μ := by
    simp only [esq]
    rw [integral_const_mul, integral_finsetSum _ fun i _ => integrable_finsetSum _ fun j _ => iD i j]
    congr 1
    exact Finset.sum_congr rfl fun i _ => integral_finsetSum _ fun j _ => iD i j
  rw [hint]
  have hsum : ∑ i ∈ Finset.range L, ∑ j ∈ Finset.range L, ∫ g, D i g * D j g ∂μ ≤ L ^ 2 * (8 * e) + L * (8 * N + 8 * t₀) := by
    calc ∑ i ∈ Finset.range L, ∑ j ∈ Finset.range L, ∫ g, D i g * D j g ∂μ
        ≤ ∑ i ∈ Finset.range L, (L * (8 * e) + L * (4 * (if i < N then (1 : ℝ) else 0)) + 4 * N + 8 * t₀) := by
          refine Finset.sum_le_sum fun i hi => ?_
          refine (Finset.sum_le_sum fun j _ => hcov i j).trans ?_
          rw [Finset.sum_add_distrib, Finset.sum_add_distrib, Finset.sum_add_distrib, Finset.sum_const, Finset.sum_const, Finset.card_range,
            nsmul_eq_mul, nsmul_eq_mul, ← Finset.mul_sum, ← Finset.mul_sum]
          have h2 := count_small L N
          have h3 := count_near L i t₀
          linarith
      _ ≤ L ^ 2 * (8 * e) + L * (8 * N + 8 * t₀) := by
          rw [Finset.sum_add_distrib, Finset.sum_add_distrib, Finset.sum_add_distrib, Finset.sum_const, Finset.sum_const, Finset.sum_const,
            Finset.card_range, nsmul_eq_mul, nsmul_eq_mul, nsmul_eq_mul, ← Finset.mul_sum, ← Finset.mul_sum]
          have h2 := mul_le_mul_of_nonneg_left (count_small L N) hLr.le
          nlinarith
  refine (mul_le_mul_of_nonneg_left hsum (by positivity)).trans ?_
  have hL' : (8 * N + 8 * t₀) / (ε / 2) < L := by
    refine hL₁.trans ?_
    have : L₁ < L := by omega
    exact_mod_cast this
  rw [div_lt_iff₀ (by positivity)] at hL'
  rw [inv_mul_le_iff₀ (by positivity), he]
  nlinarith

end

end PW
