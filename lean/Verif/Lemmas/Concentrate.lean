import Verif.Lemmas.StrongRows
import Mathlib.Probability.Moments.SubGaussian

/-!
# Exponential concentration of averages along a chain that mixes geometrically

Hoeffding's inequality for the martingale of the conditional expectations of the sum, by induction on the number of terms.
-/

namespace PW
open MeasureTheory Set ProbabilityTheory
open scoped ENNReal

theorem sum_rate_le {q : ℝ} (h0 : 0 ≤ q) (h1 : q < 1) {n₀ : ℕ} (hn₀ : 0 < n₀) (N : ℕ) :
    ∑ t ∈ Finset.range N, q ^ (t / n₀) ≤ n₀ / (1 - q) := by
  have hq : 0 < 1 - q := by linarith
  induction N using Nat.strong_induction_on with
  | _ N ih =>
    by_cases hN : N ≤ n₀
    · calc ∑ t ∈ Finset.range N, q ^ (t / n₀) ≤ ∑ t ∈ Finset.range N, (1 : ℝ) := Finset.sum_le_sum fun t _ => pow_le_one₀ h0 h1.le
        _ = N := by simp
        _ ≤ n₀ := by exact_mod_cast hN
        _ ≤ _ := by
          rw [le_div_iff₀ hq]
          have : (0 : ℝ) ≤ n₀ := Nat.cast_nonneg _
          nlinarith
    · obtain ⟨K, rfl⟩ := Nat.exists_eq_add_of_le (not_le.1 hN).le
      have h2 := ih K (by omega)
      rw [Finset.sum_range_add]
      have e1 : ∑ t ∈ Finset.range n₀, q ^ (t / n₀) = n₀ := by
        rw [Finset.sum_congr rfl fun t ht => by rw [Nat.div_eq_of_lt (Finset.mem_range.1 ht), pow_zero]]
        simp
      have e2 : ∑ t ∈ Finset.range K, q ^ ((n₀ + t) / n₀) = q * ∑ t ∈ Finset.range K, q ^ (t / n₀) := by
        rw [Finset.mul_sum]
        refine Finset.sum_congr rfl fun t _ => ?_
        rw [Nat.add_div_left _ hn₀, pow_succ, mul_comm]
      rw [e1, e2]
      have h3 := mul_le_mul_of_nonneg_left h2 h0
      have e3 : (n₀ : ℝ) + q * (n₀ / (1 - q)) = n₀ / (1 - q) := by field_simp; ring
      linarith

/-- Hoeffding's lemma, for a function with values between `-S` and `S` almost surely. -/
theorem hoeffding_exp {G : Type} [MeasurableSpace G] {μ : Measure G} [IsProbabilityMeasure μ] {Y : G → ℝ} (hY : Measurable Y) {S : ℝ} (hS : 0 ≤ S)
    (hb : ∀ᵐ g ∂μ, |Y g| ≤ S) (l : ℝ) : ∫ g, Real.exp (l * Y g) ∂μ ≤ Real.exp (l * ∫ g, Y g ∂μ) * Real.exp (l ^ 2 * S ^ 2 / 2) := by
  have h := (hasSubgaussianMGF_of_mem_Icc (μ := μ) (a := -S) (b := S) hY.aemeasurable (hb.mono fun g hg => abs_le.1 hg)).mgf_le l
  have e1 : (((‖S - -S‖₊ / 2) ^ 2 : NNReal) : ℝ) = S ^ 2 := by
    push_cast
    rw [Real.norm_eq_abs, abs_of_nonneg (by linarith)]
    ring
  rw [e1] at h
  have e2 : ∫ g, Real.exp (l * Y g) ∂μ = Real.exp (l * ∫ g, Y g ∂μ) * mgf (fun g => Y g - ∫ g, Y g ∂μ) μ l := by
    unfold mgf
    rw [← integral_const_mul]
    refine integral_congr_ae (ae_of_all _ fun g => ?_)
    show Real.exp _ = Real.exp _ * Real.exp _
    rw [← Real.exp_add]
    congr 1; ring
  rw [e2]
  refine mul_le_mul_of_nonneg_left (h.trans (le_of_eq ?_)) (Real.exp_pos _).le
  congr 1; ring

section
variable {X W G : Type} [MeasurableSpace X] [MeasurableSpace W] [MeasurableSpace G] {μ : Measure G} [IsProbabilityMeasure μ]
  {ν : Measure W} [IsProbabilityMeasure ν] {f : X → G → X × G} {T : X → W → X}
  (hf : Measurable fun p : X × G => f p.1 p.2) (hT : Measurable fun p : X × W => T p.1 p.2) (hd : Drives μ ν f T)

/-- Sum of `ψ` over `L` positions, one in every `τ`. -/
def posSum (f : X → G → X × G) (ψ : X → ℝ) (τ L : ℕ) (p : X × G) : ℝ :=
  ∑ i ∈ Finset.range L, ψ ((fun p : X × G => f p.1 p.2)^[(i + 1) * τ] p).1

include hf in
theorem measurable_posSum {ψ : X → ℝ} (hψ : Measurable ψ) (τ L : ℕ) : Measurable (posSum f ψ τ L) :=
  Finset.measurable_fun_sum _ fun i _ => hψ.comp (hf.iterate _).fst

omit [MeasurableSpace X] [MeasurableSpace G] in
theorem posSum_succ (f : X → G → X × G) (ψ : X → ℝ) (τ L : ℕ) (p : X × G) :
    posSum f ψ τ (L + 1) p = ψ ((fun p : X × G => f p.1 p.2)^[τ] p).1 + posSum f ψ τ L ((fun p : X × G => f p.1 p.2)^[τ] p) := by
  unfold posSum
  rw [Finset.sum_range_succ', add_comm, zero_add, one_mul]
  congr 1
  refine Finset.sum_congr rfl fun i _ => ?_
  rw [← Function.iterate_add_apply, show (i + 1 + 1) * τ = (i + 1) * τ + τ by ring]

omit [MeasurableSpace G] in
theorem posSum_le (f : X → G → X × G) {ψ : X → ℝ} {N : ℝ} (hψ : Bdd N ψ) (τ L : ℕ) (p : X × G) : |posSum f ψ τ L p| ≤ L * N := by
  refine (Finset.abs_sum_le_sum_abs _ _).trans ((Finset.sum_le_sum fun i _ => hψ.le _).trans (le_of_eq ?_))
  simp

include hf in
theorem bdd_expSum {ψ : X → ℝ} {N : ℝ} (hψ : Bdd N ψ) (τ L : ℕ) (l : ℝ) : Bdd (Real.exp (|l| * (L * N))) fun p => Real.exp (l * posSum f ψ τ L p) :=
  ⟨((measurable_posSum hf hψ.meas τ L).const_mul l).exp, fun p => by
    rw [abs_of_pos (Real.exp_pos _), Real.exp_le_exp]
    refine (le_abs_self _).trans ?_
    rw [abs_mul]
    exact mul_le_mul_of_nonneg_left (posSum_le f hψ τ L p) (abs_nonneg l)⟩

include hf hT hd

/-- Exponential moments of the sum. -/
theorem exp_moment {K : Set X} (hK : ∀ x ∈ K, ∀ᵐ g ∂μ, ∀ t, posAt f x t g ∈ K) {ψ : X → ℝ} {N : ℝ} (hψ : Bdd N ψ) {S : ℝ} (hS : 0 ≤ S) (τ : ℕ)
    (hsum : ∀ x ∈ K, ∀ L, |∑ t ∈ Finset.range L, (avg ν T)^[t * τ] ψ x| ≤ S) (l : ℝ) (L : ℕ) (x : X) (hx : x ∈ K) :
    ∫ g, Real.exp (l * posSum f ψ τ L (x, g)) ∂μ ≤
      Real.exp (l * ∑ t ∈ Finset.range L, (avg ν T)^[(t + 1) * τ] ψ x) * Real.exp (L * (l ^ 2 * S ^ 2 / 2)) := by
  induction L generalizing x with
  | zero => simp [posSum]
  | succ L ih =>
    set H : X → ℝ := fun y => ∑ t ∈ Finset.range (L + 1), (avg ν T)^[t * τ] ψ y with hH
    have bH : Measurable H := Finset.measurable_fun_sum _ fun t _ => (hψ.avgIter hT _).meas
    set Y : G → X := posAt f x τ with hY
    have mY : Measurable Y := measurable_posAt hf x τ
    set E : X → ℝ := fun y => Real.exp (l * ψ y) * ∫ g, Real.exp (l * posSum f ψ τ L (y, g)) ∂μ with hE
    have bE : Bdd (Real.exp (|l| * N) * Real.exp (|l| * (L * N))) E := by
      have b1 : Bdd (Real.exp (|l| * N)) fun y : X => Real.exp (l * ψ y) := ⟨(hψ.meas.const_mul l).exp, fun y => by
        rw [abs_of_pos (Real.exp_pos _), Real.exp_le_exp]
        refine (le_abs_self _).trans ?_
        rw [abs_mul]
        exact mul_le_mul_of_nonneg_left (hψ.le y) (abs_nonneg l)⟩
      have b2 := bdd_expSum hf hψ τ L l
      have b3 : Bdd (Real.exp (|l| * (L * N))) fun y : X => ∫ g, Real.exp (l * posSum f ψ τ L (y, g)) ∂μ :=
        ⟨(b2.meas.stronglyMeasurable.integral_prod_right').measurable, fun y => by
          have := norm_integral_le_of_norm_le_const (μ := μ) (f := fun g => Real.exp (l * posSum f ψ τ L (y, g))) (ae_of_all _ fun g => b2.le (y, g))
          simpa using this⟩
      exact b1.mul b3
    have b0 : Bdd (Real.exp (|l| * N) * Real.exp (|l| * (L * N))) fun p : X × G => Real.exp (l * ψ p.1) * Real.exp (l * posSum f ψ τ L p) := by
      have b1 : Bdd (Real.exp (|l| * N)) fun p : X × G => Real.exp (l * ψ p.1) := ⟨((hψ.meas.comp measurable_fst).const_mul l).exp, fun y => by
        rw [abs_of_pos (Real.exp_pos _), Real.exp_le_exp]
        refine (le_abs_self _).trans ?_
        rw [abs_mul]
        exact mul_le_mul_of_nonneg_left (hψ.le _) (abs_nonneg l)⟩
      exact b1.mul (bdd_expSum hf hψ τ L l)
    have h1 : ∫ g, Real.exp (l * posSum f ψ τ (L + 1) (x, g)) ∂μ = ∫ g, E (Y g) ∂μ := by
      rw [hY, markov_pos hf hT hd bE τ x]
      have h2 := markov hf hT hd b0 τ x
      have e2 : (fun y => ∫ g, Real.exp (l * ψ y) * Real.exp (l * posSum f ψ τ L (y, g)) ∂μ) = E := by
        funext y
        rw [hE, integral_const_mul]
      rw [show (fun y => ∫ g, (fun p : X × G => Real.exp (l * ψ p.1) * Real.exp (l * posSum f ψ τ L p)) (y, g) ∂μ) = E from e2] at h2
      rw [← h2]
      refine integral_congr_ae (ae_of_all _ fun g => ?_)
      show Real.exp _ = Real.exp _ * Real.exp _
      rw [posSum_succ, mul_add, Real.exp_add]
    have h3 : ∫ g, E (Y g) ∂μ ≤ ∫ g, Real.exp (L * (l ^ 2 * S ^ 2 / 2)) * Real.exp (l * H (Y g)) ∂μ := by
      have hHS : ∀ᵐ g ∂μ, |H (Y g)| ≤ S := (hK x hx).mono fun g hg => hsum _ (hg τ) _
      have iH : Integrable (fun g => Real.exp (L * (l ^ 2 * S ^ 2 / 2)) * Real.exp (l * H (Y g))) μ := by
        refine Integrable.const_mul ?_ _
        refine Integrable.of_bound (((bH.comp mY).const_mul l).exp.aestronglyMeasurable) (Real.exp (|l| * S)) (hHS.mono fun g hg => ?_)
        rw [Real.norm_eq_abs, abs_of_pos (Real.exp_pos _), Real.exp_le_exp]
        refine (le_abs_self _).trans ?_
        rw [abs_mul]
        exact mul_le_mul_of_nonneg_left hg (abs_nonneg l)
      refine integral_mono_ae ((bE.comp mY).int μ) iH ((hK x hx).mono fun g hg => ?_)
      have h4 := ih (Y g) (hg τ)
      show Real.exp _ * ∫ g', _ ∂μ ≤ _
      refine (mul_le_mul_of_nonneg_left h4 (Real.exp_pos _).le).trans (le_of_eq ?_)
      show _ = Real.exp (L * (l ^ 2 * S ^ 2 / 2)) * Real.exp (l * H (Y g))
      rw [← Real.exp_add, ← Real.exp_add, ← Real.exp_add]
      congr 1
      simp only [hH]
      rw [Finset.sum_range_succ' (fun t => (avg ν T)^[t * τ] ψ (Y g)) L, zero_mul, Function.iterate_zero, id_eq]
      ring
    have hHS : ∀ᵐ g ∂μ, |H (Y g)| ≤ S := (hK x hx).mono fun g hg => hsum _ (hg τ) _
    have h5 := hoeffding_exp (bH.comp mY) hS hHS l
    have h6 : ∫ g, H (Y g) ∂μ = ∑ t ∈ Finset.range (L + 1), (avg ν T)^[(t + 1) * τ] ψ x := by
      simp only [hH]
      rw [integral_finsetSum _ fun t _ => ((hψ.avgIter hT _).comp mY).int μ]
      refine Finset.sum_congr rfl fun t _ => ?_
      rw [hY, markov_pos hf hT hd (hψ.avgIter hT _) τ x, ← Function.iterate_add_apply]
      congr 2
      ring
    rw [h1]
    refine h3.trans ?_
    rw [integral_const_mul]
    refine (mul_le_mul_of_nonneg_left h5 (Real.exp_pos _).le).trans (le_of_eq ?_)
    show _ * (Real.exp (l * ∫ g, H (Y g) ∂μ) * _) = _
    rw [h6, mul_left_comm, ← Real.exp_add]
    congr 2
    push_cast; ring

/-- One-sided tail. -/
theorem upper_tail {K : Set X} (hK : ∀ x ∈ K, ∀ᵐ g ∂μ, ∀ t, posAt f x t g ∈ K) {ψ : X → ℝ} {N : ℝ} (hψ : Bdd N ψ) {S : ℝ} (hS : 0 < S) (B τ : ℕ)
    (hsum : ∀ x ∈ K, ∀ L, |∑ t ∈ Finset.range L, (avg ν T)^[t * τ] ψ x| ≤ S) (hsum' : ∀ x ∈ K, ∀ L, |∑ t ∈ Finset.range L, (avg ν T)^[(t + 1) * τ] ψ x| ≤ S)
    {a : ℝ} (ha : 0 < a) (L : ℕ) (x : X) (hx : x ∈ K) :
    μ {g | L * a ≤ ∑ i ∈ Finset.range L, ψ (posAt f x (B + (i + 1) * τ) g)} ≤ ENNReal.ofReal (Real.exp (a / S - L * (a / S) ^ 2 / 2)) := by
  set l := a / S ^ 2 with hl
  have hl0 : 0 < l := by positivity
  set Q : G → ℝ := fun g => Real.exp (l * ∑ i ∈ Finset.range L, ψ (posAt f x (B + (i + 1) * τ) g)) with hQ
  have eQ : ∀ g, Q g = Real.exp (l * posSum f ψ τ L ((fun p : X × G => f p.1 p.2)^[B] (x, g))) := fun g => by
    simp only [hQ, posSum, posAt]
    congr 2
    refine Finset.sum_congr rfl fun i _ => ?_
    rw [add_comm B, Function.iterate_add_apply]
  have b2 := bdd_expSum hf hψ τ L l
  have bE : Bdd (Real.exp (|l| * (L * N))) fun y : X => ∫ g, Real.exp (l * posSum f ψ τ L (y, g)) ∂μ :=
    ⟨(b2.meas.stronglyMeasurable.integral_prod_right').measurable, fun y => by
      have := norm_integral_le_of_norm_le_const (μ := μ) (f := fun g => Real.exp (l * posSum f ψ τ L (y, g))) (ae_of_all _ fun g => b2.le (y, g))
      simpa using this⟩
  have h1 : ∫ g, Q g ∂μ ≤ Real.exp (l * S) * Real.exp (L * (l ^ 2 * S ^ 2 / 2)) := by
    have h2 := markov hf hT hd b2 B x
    rw [← markov_pos hf hT hd bE B x] at h2
    simp only [eQ]
    rw [h2]
    have h3 : ∫ g, (∫ g', Real.exp (l * posSum f ψ τ L (posAt f x B g, g')) ∂μ) ∂μ ≤ ∫ _, Real.exp (l * S) * Real.exp (L * (l ^ 2 * S ^ 2 / 2)) ∂μ := by
      refine integral_mono_ae ((bE.comp (measurable_posAt hf x B)).int μ) (integrable_const _) ((hK x hx).mono fun g hg => ?_)
      refine (exp_moment hf hT hd hK hψ hS.le τ hsum l L _ (hg B)).trans ?_
      refine mul_le_mul_of_nonneg_right (Real.exp_le_exp.2 ?_) (Real.exp_pos _).le
      exact mul_le_mul_of_nonneg_left ((le_abs_self _).trans (hsum' _ (hg B) L)) hl0.le
    simpa using h3
  have mQ : Measurable Q := ((Finset.measurable_fun_sum _ fun i _ => hψ.meas.comp (measurable_posAt hf x _)).const_mul l).exp
  have iQ : Integrable Q μ := by
    refine Integrable.of_bound mQ.aestronglyMeasurable (Real.exp (|l| * (L * N))) (ae_of_all _ fun g => ?_)
    rw [eQ]
    exact b2.le _
  have h4 := mul_meas_ge_le_integral_of_nonneg (ae_of_all μ fun g => (Real.exp_pos _).le (α := ℝ)) iQ (Real.exp (l * (L * a)))
  have h5 : {g | L * a ≤ ∑ i ∈ Finset.range L, ψ (posAt f x (B + (i + 1) * τ) g)} = {g | Real.exp (l * (L * a)) ≤ Q g} := by
    ext g
    show (L : ℝ) * a ≤ _ ↔ Real.exp _ ≤ Real.exp _
    rw [Real.exp_le_exp]
    exact (mul_le_mul_iff_right₀ hl0).symm
  rw [h5, ← ENNReal.ofReal_toReal (measure_ne_top μ {g | Real.exp (l * (L * a)) ≤ Q g})]
  refine ENNReal.ofReal_le_ofReal ?_
  have h6 : (μ {g | Real.exp (l * (L * a)) ≤ Q g}).toReal ≤ Real.exp (l * S) * Real.exp (L * (l ^ 2 * S ^ 2 / 2)) / Real.exp (l * (L * a)) := by
    rw [le_div_iff₀ (Real.exp_pos _), mul_comm]
    exact h4.trans h1
  refine h6.trans (le_of_eq ?_)
  rw [← Real.exp_add, ← Real.exp_sub]
  congr 1
  rw [hl]
  field_simp
  ring

end

section
variable {n m : ℕ} {W : Type} [MeasurableSpace W] {P : Measure (Fin n → ℝ)} {ν : Measure W} [IsProbabilityMeasure ν]
  {T : (Fin n → ℝ) → W → Fin n → ℝ} {K : Set (Fin n → ℝ)} {β : ℝ} {n₀ : ℕ} (h : Mixes P ν T K β n₀)
include h

theorem Mixes.sum_le {ψ : (Fin n → ℝ) → ℝ} (hψ : Bdd 1 ψ) {τ : ℕ} (hτ : 1 ≤ τ) (s : ℕ) {y : Fin n → ℝ} (hy : y ∈ K) (L : ℕ) :
    |∑ t ∈ Finset.range L, (avg ν T)^[(t + s) * τ] (fun z => ψ z - ∫ z, ψ z ∂P) y| ≤ 2 * n₀ / β := by
  have hq0 : 0 ≤ 1 - β := by have := h.le; linarith
  have hq1 : 1 - β < 1 := by have := h.pos; linarith
  have h1 : ∀ t, |(avg ν T)^[(t + s) * τ] (fun z => ψ z - ∫ z, ψ z ∂P) y| ≤ (1 - β) ^ (t / n₀) * 2 := by
    intro t
    rw [avg_sub_const h.meas hψ]
    have h2 := h.rate hψ (lo := -1) (hi := 1) (fun z _ => (abs_le.1 (hψ.le z)).1) (fun z _ => (abs_le.1 (hψ.le z)).2) ((t + s) * τ) hy
    norm_num at h2
    refine h2.trans (mul_le_mul_of_nonneg_right (pow_le_pow_of_le_one hq0 hq1.le (Nat.div_le_div_right ?_)) two_pos.le)
    nlinarith
  calc |∑ t ∈ Finset.range L, (avg ν T)^[(t + s) * τ] (fun z => ψ z - ∫ z, ψ z ∂P) y|
      ≤ ∑ t ∈ Finset.range L, |(avg ν T)^[(t + s) * τ] (fun z => ψ z - ∫ z, ψ z ∂P) y| := Finset.abs_sum_le_sum_abs _ _
    _ ≤ ∑ t ∈ Finset.range L, (1 - β) ^ (t / n₀) * 2 := Finset.sum_le_sum fun t _ => h1 t
    _ = (∑ t ∈ Finset.range L, (1 - β) ^ (t / n₀)) * 2 := by rw [Finset.sum_mul]
    _ ≤ n₀ / (1 - (1 - β)) * 2 := mul_le_mul_of_nonneg_right (sum_rate_le hq0 hq1 h.len_pos L) two_pos.le
    _ = _ := by rw [sub_sub_cancel]; ring

/-- Averages are off with exponentially small probability. -/
theorem Mixes.concentrate {x : Fin n → ℝ} (hx : x ∈ K) {φ : (Fin n → ℝ) → ℝ} (hφ : Measurable φ) {M : ℝ} (hM : 0 < M)
    (hφM : ∀ y ∈ K, |φ y| ≤ M) {w : Walk ℝ} {e : Env ℝ} [MeasurableSpace e.r.G]
    {μ : Measure e.r.G} [IsProbabilityMeasure μ] {f : (Fin n → ℝ) → e.r.G → (Fin n → ℝ) × e.r.G}
    (mf : Measurable fun p : (Fin n → ℝ) × e.r.G => f p.1 p.2) (hd : Drives μ ν f T) (hK : ∀ x ∈ K, ∀ᵐ g ∂μ, ∀ t, posAt f x t g ∈ K)
    {A : Matrix (Fin m) (Fin n) ℝ} {b : Fin m → ℝ} {k seed : Int} (hk : w.isSparse = true → 1 ≤ k ∧ k ≤ n)
    (hfol : ∀ niter burnin thin : Int, ∀ᵐ g ∂μ, Follows w e (callArgs A b x niter k burnin thin seed) ⟨rfl, rfl⟩ (posAt f x) g)
    (L : ℕ) {ε : ℝ} (hε : 0 < ε) :
    MeanWithin w e μ A b x k seed φ (∫ y, φ y ∂P) L ε
      (2 * Real.exp (ε / (2 * n₀ / β * M) - L * (ε / (2 * n₀ / β * M)) ^ 2 / 2)) := by
  have := h.prob
  have hβ := h.pos
  have hn0 : (0 : ℝ) < n₀ := by exact_mod_cast h.len_pos
  have hS : 0 < 2 * n₀ / β := by positivity
  set S := 2 * n₀ / β with hSd
  refine MeanWithin.of_follows (q := posAt f x) hk hfol fun B τ hτ => ?_
  rcases Nat.eq_zero_or_pos L with rfl | hL
  · have h1 : (1 : ℝ≥0∞) ≤ ENNReal.ofReal (2 * Real.exp (ε / (S * M) - (0 : ℕ) * (ε / (S * M)) ^ 2 / 2)) := by
      rw [← ENNReal.ofReal_one]
      refine ENNReal.ofReal_le_ofReal ?_
      have : 0 ≤ ε / (S * M) := by positivity
      have := Real.one_le_exp this
      push_cast
      rw [zero_mul, zero_div, sub_zero]
      linarith
    rw [tsub_eq_zero_of_le h1]
    exact zero_le
  have hLr : (0 : ℝ) < L := by exact_mod_cast hL
  set ψ := clampTo M φ with hψd
  have bψ : Bdd 1 ψ := clampTo_bdd M hφ
  set c := ∫ y, ψ y ∂P with hcd
  have hc : c = (∫ y, φ y ∂P) / M := by
    rw [hcd, ← integral_div]
    exact integral_congr_ae (h.ae.mono fun y hy => clampTo_eq hM (hφM y hy))
  have b1 : Bdd (1 + |c|) fun y => ψ y - c := bψ.sub (Bdd.const (X := Fin n → ℝ) c)
  have b2 : Bdd (1 + |c|) fun y => -1 * (ψ y - c) := ⟨b1.meas.const_mul _, fun y => by rw [neg_one_mul, abs_neg]; exact b1.le y⟩
  have hsum : ∀ s, ∀ y ∈ K, ∀ L, |∑ t ∈ Finset.range L, (avg ν T)^[(t + s) * τ] (fun z => ψ z - c) y| ≤ S := fun s y hy L => h.sum_le bψ hτ s hy L
  have hsum' : ∀ s, ∀ y ∈ K, ∀ L, |∑ t ∈ Finset.range L, (avg ν T)^[(t + s) * τ] (fun z => -1 * (ψ z - c)) y| ≤ S := fun s y hy L => by
    simp only [avg_const_mul]
    rw [← Finset.mul_sum, neg_one_mul, abs_neg]
    exact hsum s y hy L
  have ha : 0 < ε / M := by positivity
  have u1 := upper_tail mf h.meas hd hK b1 hS B τ (fun y hy L => hsum 0 y hy L) (hsum 1) ha L x hx
  have u2 := upper_tail mf h.meas hd hK b2 hS B τ (fun y hy L => hsum' 0 y hy L) (hsum' 1) ha L x hx
  have e1 : ε / M / S = ε / (S * M) := by rw [div_div, mul_comm]
  rw [e1] at u1 u2
  set δ := Real.exp (ε / (S * M) - L * (ε / (S * M)) ^ 2 / 2) with hδ
  set good := {g | |(∑ i ∈ Finset.range L, φ (posAt f x (B + (i + 1) * τ) g)) / L - ∫ y, φ y ∂P| < ε} with hgood
  set b₁ := {g | L * (ε / M) ≤ ∑ i ∈ Finset.range L, (ψ (posAt f x (B + (i + 1) * τ) g) - c)} with hb₁
  set b₂ := {g | L * (ε / M) ≤ ∑ i ∈ Finset.range L, -1 * (ψ (posAt f x (B + (i + 1) * τ) g) - c)} with hb₂
  have hcover : ∀ᵐ g ∂μ, g ∈ univ → g ∈ good ∪ (b₁ ∪ b₂) := by
    filter_upwards [hK x hx] with g hg _
    by_contra hne
    rw [mem_union, mem_union, not_or, not_or] at hne
    obtain ⟨h1, h2, h3⟩ := hne
    refine h1 ?_
    have h2 : ∑ i ∈ Finset.range L, (ψ (posAt f x (B + (i + 1) * τ) g) - c) < L * (ε / M) := not_le.1 h2
    have h3 : ∑ i ∈ Finset.range L, -1 * (ψ (posAt f x (B + (i + 1) * τ) g) - c) < L * (ε / M) := not_le.1 h3
    rw [← Finset.mul_sum] at h3
    have e2 : ∑ i ∈ Finset.range L, (ψ (posAt f x (B + (i + 1) * τ) g) - c) =
        (∑ i ∈ Finset.range L, φ (posAt f x (B + (i + 1) * τ) g) - L * ∫ y, φ y ∂P) / M := by
      rw [Finset.sum_sub_distrib, Finset.sum_const, Finset.card_range, nsmul_eq_mul, hc, sub_div, Finset.sum_div]
      congr 1
      · exact Finset.sum_congr rfl fun i _ => clampTo_eq hM (hφM _ (hg _))
      · ring
    rw [e2] at h2 h3
    show |_| < ε
    have e3 : (∑ i ∈ Finset.range L, φ (posAt f x (B + (i + 1) * τ) g)) / L - ∫ y, φ y ∂P =
        (∑ i ∈ Finset.range L, φ (posAt f x (B + (i + 1) * τ) g) - L * ∫ y, φ y ∂P) / M * (M / L) := by field_simp
    have e4 : ε = L * (ε / M) * (M / L) := by field_simp
    rw [e3, abs_mul, abs_of_pos (show 0 < M / L by positivity)]
    conv_rhs => rw [e4]
    refine mul_lt_mul_of_pos_right (abs_lt.2 ⟨?_, h2⟩) (by positivity)
    linarith
  have h7 : (1 : ℝ≥0∞) ≤ μ good + ENNReal.ofReal (2 * δ) := by
    have h8 : μ univ ≤ μ (good ∪ (b₁ ∪ b₂)) := measure_mono_ae hcover
    rw [measure_univ] at h8
    refine h8.trans ((measure_union_le _ _).trans (add_le_add_right ((measure_union_le _ _).trans ?_) _))
    rw [two_mul, ENNReal.ofReal_add (Real.exp_pos _).le (Real.exp_pos _).le]
    exact add_le_add u1 u2
  exact tsub_le_iff_right.2 h7

end

end PW
